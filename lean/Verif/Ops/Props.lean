import Verif.Ops.Lemmas
/-!
# Operators: integer expressions (C60)
-/
namespace BaikalDB.Ops
open BaikalDB.Expr BaikalDB.KeyEnc.Spec BaikalDB.Ops.Spec

/-- The node `e'` stands for the integer expression `e` on the row. -/
def RepN (fp : FP) (row : Nat → EV) (e e' : Node) : Prop := ∃ t v, infer fp e' = .ok t ∧ Rep fp row e t v

/-- Values of integer expressions are 64-bit numbers of their kind. -/
theorem value_range {row : Nat → EV} {e : Node} (hi : IntExpr row e) (hw : Within row e) {x : Int}
    (hx : value row e = some x) : InRange (Unsigned e) x := by
  have leaf : ∀ v : EV, Expr.Spec.IntTy v.ty → intOf v = some x → InRange (UnsignedTy v.ty) x := by
    intro v hv hx
    obtain ⟨x', e1, _, e3⟩ := sem_int hv
    rw [intOf_sem, e1] at hx
    simp only [Option.some.injEq, Expr.Spec.SVal.num.injEq] at hx
    subst hx
    rcases intTy_cases hv with h | h | h | h | h | h | h | h <;> rw [h] at e3 ⊢ <;>
      simp [Expr.Spec.Fits, Expr.Spec.range, InRange, UnsignedTy] at e3 ⊢ <;> omega
  cases e with
  | lit v =>
    rcases hi with h | h
    · exact leaf v h hx
    · simp only [value] at hx; rw [intOf_null h] at hx; exact absurd hx (by simp)
  | slot i t =>
    rcases hi with ⟨h1, h | h⟩
    · have := leaf (row i) (h ▸ h1) hx
      rw [h] at this; exact this
    · simp only [value] at hx; rw [intOf_null h] at hx; exact absurd hx (by simp)
  | un op a =>
    simp only [value, Option.map_eq_some_iff] at hx
    obtain ⟨y, h1, h2⟩ := hx
    exact h2 ▸ (hw.2 y h1).2
  | bin op a b =>
    simp only [value, Option.bind_eq_some_iff] at hx
    obtain ⟨y, h1, z, h2, h3⟩ := hx
    exact (hw.2.2 y z h1 h2).2 x h3

theorem ret_cast (fp : FP) {r : EV} {t : VTy} (h : r.ty = t ∨ r.ty = .null) : cast fp r t = .ok r := by
  rcases h with h | h
  · exact cast_same fp h
  · exact cast_null fp t h

theorem ite_ty (u : Bool) : (if u then VTy.uint64 else VTy.int64) = .int64 ∨ (if u then VTy.uint64 else VTy.int64) = .uint64 := by
  cases u <;> simp

theorem range_lt {u : Bool} {x : Int} (h : InRange u x) : x < 2 ^ 64 := by
  cases u <;> simp [InRange] at h <;> omega

theorem intTy_ite (u : Bool) : Expr.Spec.IntTy (if u then VTy.uint64 else VTy.int64) := by
  cases u <;> simp [Expr.Spec.IntTy]
theorem isUint_ite (u : Bool) : (if u then VTy.uint64 else VTy.int64).isUint = u := by cases u <;> rfl

theorem intOf_ite {u : Bool} {r : EV} {z : Int} (ht : r.ty = if u then VTy.uint64 else .int64)
    (hu : r.u = BitVec.ofInt 64 z) (h : InRange u z) : intOf r = some z := by
  cases u with
  | true => exact intOf_uint64 ht hu h
  | false => exact intOf_int64 ht hu h

/-- One binary operator. -/
theorem bin_rep {fp : FP} {row : Nat → EV} {op : BOp} {a b a' b' : Node} (hi : IntExpr row (.bin op a b))
    (hw : Within row (.bin op a b)) (ha : RepN fp row a a') (hb : RepN fp row b b') :
    RepN fp row (.bin op a b) (.bin op a' b') := by
  obtain ⟨ta, va, ia, ra⟩ := ha
  obtain ⟨tb, vb, ib, rb⟩ := hb
  obtain ⟨hop, hia, hib⟩ := hi
  obtain ⟨hwa, hwb, hw⟩ := hw
  have hnp := not_pred hop
  have hts : operandTys op a' b' ta tb = [ta.ty, tb.ty] := by simp [operandTys, hnp]
  have hrn : rightNode op a' b' ta tb = tb := by simp [rightNode, hnp]
  have hin : ∀ t ∈ [ta.ty, tb.ty], Expr.Spec.IntTy t ∨ t = .null := by
    intro t ht
    simp only [List.mem_cons, List.not_mem_nil, or_false] at ht
    rcases ht with h | h <;> subst h
    · exact ra.tty
    · exact rb.tty
  obtain ⟨u, hu⟩ : ∃ u : Bool, u = (decide (IsBit op) || [ta.ty, tb.ty].any VTy.isUint) := ⟨_, rfl⟩
  have hT : argTy op [ta.ty, tb.ty] = if u then .uint64 else .int64 := by rw [argTy_arith hop hin, hu]
  have hRt : retTy op [ta.ty, tb.ty] = if u then .uint64 else .int64 := by simp [retTy, hnp, hT]
  have hTc : ∀ t : TNode, (if u then VTy.uint64 else VTy.int64) = .int64 ∨ (if u then VTy.uint64 else VTy.int64) = .uint64 ∨
      (if u then VTy.uint64 else VTy.int64) = .double ∨ ((if u then VTy.uint64 else VTy.int64) = .string ∧ t.ty = .null) := by
    intro t; rcases ite_ty u with h | h
    · exact Or.inl h
    · exact Or.inr (Or.inl h)
  obtain ⟨ca, va', wa, a1, a2, a3, a4, a5, a6⟩ := operand ra (hTc ta)
  obtain ⟨cb, vb', wb, b1, b2, b3, b4, b5, b6⟩ := operand rb (hTc tb)
  have hnd : (if u then VTy.uint64 else VTy.int64) ≠ .double := by cases u <;> simp
  have hinf : infer fp (.bin op a' b') = .ok (.bin op (if u then .uint64 else .int64) (if u then .uint64 else .int64) ca cb) := by
    simp only [infer, ia, ib, hts, hrn, hT, hRt, a1, b1, bind, Except.bind, pure, Except.pure]
  have hev : ∀ r, binFn fp op (if u then .uint64 else .int64) wa wb = .ok r → (r.ty = (if u then .uint64 else .int64) ∨ r.ty = .null) →
      eval fp row (.bin op (if u then .uint64 else .int64) (if u then .uint64 else .int64) ca cb) = .ok r := by
    intro r hr ht
    simp only [eval, a2, b2, a3, b3, bind, Except.bind, hr]
    exact ret_cast fp ht
  cases hva : value row a with
  | none =>
    have hn : binFn fp op (if u then .uint64 else .int64) wa wb = .ok nullV := by
      unfold binFn; rw [if_pos (by simp [EV.isNull, a4 hva])]
    have hval : value row (.bin op a b) = none := by simp [value, hva]
    refine ⟨_, nullV, hinf, hev _ hn (Or.inr rfl), ?_, Or.inr rfl, Or.inl (intTy_ite u), ?_⟩
    · rw [hval]; rfl
    · rw [hval]; simp
  | some x =>
    cases hvb : value row b with
    | none =>
      have hn : binFn fp op (if u then .uint64 else .int64) wa wb = .ok nullV := by
        unfold binFn; rw [if_pos (by simp [EV.isNull, b4 hvb])]
      have hval : value row (.bin op a b) = none := by simp [value, hva, hvb]
      refine ⟨_, nullV, hinf, hev _ hn (Or.inr rfl), ?_, Or.inr rfl, Or.inl (intTy_ite u), ?_⟩
      · rw [hval]; rfl
      · rw [hval]; simp
    | some y =>
      obtain ⟨ka1, ka2, ka3⟩ := ra.kind x hva
      obtain ⟨kb1, kb2, kb3⟩ := rb.kind y hvb
      have huU : Unsigned (.bin op a b) = u := by
        simp only [Unsigned, hu, List.any_cons, List.any_nil, ka3, kb3, Bool.or_false, Bool.or_assoc]
      have rx := value_range hia hwa hva
      have ry := value_range hib hwb hvb
      have rsx : u = false → -2 ^ 63 ≤ x ∧ x < 2 ^ 63 := by
        intro h
        have : Unsigned a = false := by
          rw [h] at huU; simp only [Unsigned, Bool.or_eq_false_iff] at huU; exact huU.1.2
        rw [this] at rx; exact rx
      have rsy : u = false → -2 ^ 63 ≤ y ∧ y < 2 ^ 63 := by
        intro h
        have : Unsigned b = false := by
          rw [h] at huU; simp only [Unsigned, Bool.or_eq_false_iff] at huU; exact huU.2
        rw [this] at ry; exact ry
      obtain ⟨hTk, hRg⟩ := hw x y hva hvb
      rw [huU] at hTk hRg
      obtain ⟨r, r1, r2⟩ := binFn_arith fp hop (u := u) (fun h => by rw [hu]; simp [h]) (a5 x hva) (b5 y hvb) (a6 x hva hnd)
        (b6 y hvb hnd) rsx rsy (fun _ => range_lt rx) (fun _ => range_lt ry) hTk hRg
      rcases r2 with ⟨h1, h2⟩ | ⟨z, h1, h2, h3⟩
      · have hval : value row (.bin op a b) = none := by simp [value, hva, hvb, h1]
        refine ⟨_, r, hinf, hev _ r1 (Or.inr (h2 ▸ rfl)), ?_, Or.inr (h2 ▸ rfl), Or.inl (intTy_ite u), ?_⟩
        · rw [hval]; rw [h2]; rfl
        · rw [hval]; simp
      · have hval : value row (.bin op a b) = some z := by simp [value, hva, hvb, h1]
        refine ⟨_, r, hinf, hev _ r1 (Or.inl h2), ?_, Or.inl (h2 ▸ intTy_ite u), Or.inl (intTy_ite u), ?_⟩
        · rw [hval]; exact intOf_ite h2 h3 (hRg z h1)
        · intro q hq
          rw [huU]
          exact ⟨by rw [h2]; exact isUint_ite u, intTy_ite u, isUint_ite u⟩

/-- One unary operator. -/
theorem un_rep {fp : FP} {row : Nat → EV} {op : UOp} {a a' : Node} (hi : IntExpr row (.un op a))
    (hw : Within row (.un op a)) (ha : RepN fp row a a') : RepN fp row (.un op a) (.un op a') := by
  obtain ⟨ta, va, ia, ra⟩ := ha
  have hia : IntExpr row a := hi
  obtain ⟨hwa, hw⟩ := hw
  obtain ⟨u, hu⟩ : ∃ u : Bool, u = (decide (op = .bnot) || ta.ty.isUint) := ⟨_, rfl⟩
  have hT : unTy op ta.ty = if u then .uint64 else .int64 := by
    have hd : isDouble ta.ty = false := by
      rcases ra.tty with h | h
      · rcases intTy_cases h with h | h | h | h | h | h | h | h <;> rw [h] <;> rfl
      · rw [h]; rfl
    rw [hu]
    cases op <;> simp [unTy, hd]
  have hTc : (if u then VTy.uint64 else VTy.int64) = .int64 ∨ (if u then VTy.uint64 else VTy.int64) = .uint64 ∨
      (if u then VTy.uint64 else VTy.int64) = .double ∨ ((if u then VTy.uint64 else VTy.int64) = .string ∧ ta.ty = .null) := by
    rcases ite_ty u with h | h
    · exact Or.inl h
    · exact Or.inr (Or.inl h)
  obtain ⟨ca, va', wa, a1, a2, a3, a4, a5, a6⟩ := operand ra hTc
  have hnd : (if u then VTy.uint64 else VTy.int64) ≠ .double := by cases u <;> simp
  have hinf : infer fp (.un op a') = .ok (.un op (if u then .uint64 else .int64) (if u then .uint64 else .int64) ca) := by
    simp only [infer, ia, hT, a1, bind, Except.bind, pure, Except.pure]
  cases hva : value row a with
  | none =>
    have hn : unFn op (if u then .uint64 else .int64) wa = .ok nullV := by
      unfold unFn; rw [if_pos (by simp [EV.isNull, a4 hva])]
    have hval : value row (.un op a) = none := by simp [value, hva]
    refine ⟨_, nullV, hinf, ?_, ?_, Or.inr rfl, Or.inl (intTy_ite u), ?_⟩
    · simp only [eval, a2, a3, bind, Except.bind, hn]; exact ret_cast fp (Or.inr rfl)
    · rw [hval]; rfl
    · rw [hval]; simp
  | some x =>
    obtain ⟨ka1, ka2, ka3⟩ := ra.kind x hva
    obtain ⟨hpos, hR⟩ := hw x hva
    have rx := value_range hia hwa hva
    have huU : Unsigned (.un op a) = u := by rw [hu]; cases op <;> simp [Unsigned, ka3]
    have hval : value row (.un op a) = some (intUn op x) := by simp [value, hva]
    rw [huU] at hR
    have wn : wa.isNull = false := by unfold EV.isNull; rw [a5 x hva]; cases u <;> rfl
    have wu := a6 x hva hnd
    have hkind : ∀ q, value row (.un op a) = some q → ∀ r : EV, r.ty = (if u then VTy.uint64 else .int64) →
        r.ty.isUint = Unsigned (.un op a) ∧ Expr.Spec.IntTy (if u then VTy.uint64 else .int64) ∧
        (if u then VTy.uint64 else VTy.int64).isUint = Unsigned (.un op a) := by
      intro q _ r hr
      rw [huU, hr]
      exact ⟨isUint_ite u, intTy_ite u, isUint_ite u⟩
    -- the result of the function, converted
    have hres : ∃ r, (unFn op (if u then .uint64 else .int64) wa).bind (fun r => cast fp r (if u then .uint64 else .int64)) = .ok r ∧
        r.ty = (if u then .uint64 else .int64) ∧ r.u = BitVec.ofInt 64 (intUn op x) := by
      cases op with
      | bnot =>
        have hut : u = true := by rw [hu]; rfl
        subst hut
        have hx0 := hpos rfl
        refine ⟨⟨.uint64, ~~~ wa.u, []⟩, ?_, rfl, ?_⟩
        · unfold unFn
          rw [if_neg (by simp [wn])]
          exact cast_same fp rfl
        · rw [wu]
          apply BitVec.eq_of_toNat_eq
          rw [BitVec.toNat_not, toNat_ofInt64 ⟨hx0, range_lt rx⟩]
          have := range_lt rx
          simp only [intUn]
          rw [toNat_ofInt64 ⟨by omega, by omega⟩]
          omega
      | neg =>
        cases hu' : u with
        | false =>
          subst hu'
          have hUa : Unsigned a = false := by simpa [Unsigned] using huU
          rw [hUa] at rx
          refine ⟨⟨.int64, BitVec.ofInt 64 (-x), []⟩, ?_, rfl, rfl⟩
          unfold unFn
          rw [if_neg (by simp [wn])]
          simp only [Bool.false_eq_true, if_false, wu]
          rw [toInt_ofInt64 rx]
          simp only [InRange, intUn, Bool.false_eq_true, if_false] at hR
          unfold signed
          rw [if_neg (by omega)]
          exact cast_same fp rfl
        | true =>
          subst hu'
          have hUa : Unsigned a = true := by simpa [Unsigned] using huU
          rw [hUa] at rx
          simp only [InRange, intUn, if_true] at hR rx
          have hx0 : x = 0 := by omega
          subst hx0
          refine ⟨⟨.uint64, BitVec.ofInt 64 0, []⟩, ?_, rfl, by simp [intUn]⟩
          unfold unFn
          rw [if_neg (by simp [wn])]
          simp only [if_true, wu]
          rfl
    obtain ⟨r, r1, r2, r3⟩ := hres
    refine ⟨_, r, hinf, ?_, ?_, Or.inl (r2 ▸ intTy_ite u), Or.inl (intTy_ite u), fun q hq => hkind q hq r r2⟩
    · simp only [eval, a2, a3, bind, Except.bind]
      exact r1
    · rw [hval]; exact intOf_ite r2 r3 hR

theorem leaf_rep {fp : FP} {row : Nat → EV} {v : EV} (h : Expr.Spec.IntTy v.ty ∨ v.ty = .null) :
    RepN fp row (.lit v) (.lit v) := by
  refine ⟨_, v, rfl, rfl, ?_, h, h, ?_⟩
  · rcases h with h | h
    · obtain ⟨x, hx⟩ := intOf_some h
      simp only [value, hx]; exact hx
    · simp only [value, intOf_null h]; exact h
  · intro x hx
    rcases h with h | h
    · exact ⟨by rw [isUint_eq]; rfl, h, by rw [isUint_eq]; rfl⟩
    · simp only [value, intOf_null h] at hx; exact absurd hx (by simp)

theorem slot_rep {fp : FP} {row : Nat → EV} {i : Nat} {t : VTy} (h : IntExpr row (.slot i t)) :
    RepN fp row (.slot i t) (.slot i t) := by
  obtain ⟨h1, h2⟩ := h
  refine ⟨_, row i, rfl, rfl, ?_, ?_, Or.inl h1, ?_⟩
  · rcases h2 with h | h
    · obtain ⟨x, hx⟩ := intOf_some (h ▸ h1)
      simp only [value, hx]; exact hx
    · simp only [value, intOf_null h]; exact h
  · rcases h2 with h | h
    · exact Or.inl (h ▸ h1)
    · exact Or.inr h
  · intro x hx
    rcases h2 with h | h
    · exact ⟨by rw [isUint_eq, h]; rfl, h1, by rw [isUint_eq]; rfl⟩
    · simp only [value, intOf_null h] at hx; exact absurd hx (by simp)

/-- Types chosen and evaluated without folding. -/
theorem infer_rep (fp : FP) (row : Nat → EV) (e : Node) (hi : IntExpr row e) (hw : Within row e) : RepN fp row e e := by
  induction e with
  | lit v => exact leaf_rep hi
  | slot i t => exact slot_rep hi
  | un op a ih => exact un_rep hi hw (ih hi hw.1)
  | bin op a b iha ihb => exact bin_rep hi hw (iha hi.2.1 hw.1) (ihb hi.2.2 hw.2.1)

theorem const_value {row row' : Nat → EV} {e : Node} (h : e.isConst = true) : value row e = value row' e := by
  induction e with
  | lit v => rfl
  | slot i t => exact absurd h (by simp [Node.isConst])
  | un op a ih => simp only [value]; rw [ih h]
  | bin op a b iha ihb =>
    simp only [Node.isConst, Bool.and_eq_true] at h
    simp only [value]; rw [iha h.1, ihb h.2]

theorem const_int {row row' : Nat → EV} {e : Node} (h : e.isConst = true) (hi : IntExpr row e) : IntExpr row' e := by
  induction e with
  | lit v => exact hi
  | slot i t => exact absurd h (by simp [Node.isConst])
  | un op a ih => exact ih h hi
  | bin op a b iha ihb =>
    simp only [Node.isConst, Bool.and_eq_true] at h
    exact ⟨hi.1, iha h.1 hi.2.1, ihb h.2 hi.2.2⟩

theorem const_within {row row' : Nat → EV} {e : Node} (h : e.isConst = true) (hi : Within row e) : Within row' e := by
  induction e with
  | lit v => exact hi
  | slot i t => exact absurd h (by simp [Node.isConst])
  | un op a ih =>
    have := const_value (row := row) (row' := row') (e := a) h
    exact ⟨ih h hi.1, by rw [← this]; exact hi.2⟩
  | bin op a b iha ihb =>
    simp only [Node.isConst, Bool.and_eq_true] at h
    have e1 := const_value (row := row) (row' := row') (e := a) h.1
    have e2 := const_value (row := row) (row' := row') (e := b) h.2
    exact ⟨iha h.1 hi.1, ihb h.2 hi.2.1, by rw [← e1, ← e2]; exact hi.2.2⟩

/-- A folded operand stands for the operand. -/
theorem fold_rep {fp : FP} {row : Nat → EV} {e : Node} {rest : Except Bad Node} (hi : IntExpr row e) (hw : Within row e)
    (hr : e.isConst = false → ∃ e', rest = .ok e' ∧ RepN fp row e e') :
    ∃ e', foldChild fp e rest = .ok e' ∧ RepN fp row e e' := by
  unfold foldChild
  by_cases hc : e.isConst = true
  · rw [if_pos hc]
    by_cases hl : e.isLit = true
    · rw [if_pos hl]
      exact ⟨e, rfl, infer_rep fp row e hi hw⟩
    · rw [if_neg hl]
      obtain ⟨t, v, h1, h2⟩ := infer_rep fp (fun _ => nullV) e (const_int hc hi) (const_within hc hw)
      refine ⟨.lit v, ?_, .lit v, v, rfl, rfl, ?_, h2.vty, h2.vty, ?_⟩
      · simp only [constValue, h1, bind, Except.bind, h2.ev, Except.map]
      · rw [const_value (row := row) (row' := fun _ => nullV) hc]; exact h2.is
      · intro x hx
        rw [const_value (row := row) (row' := fun _ => nullV) hc] at hx
        have k := h2.kind x hx
        exact ⟨k.1, (h2.some hx).2, k.1⟩
  · rw [if_neg hc]
    exact hr (by simpa using hc)

/-- `const_pre_calc` keeps the meaning. -/
theorem preCalc_rep (fp : FP) (row : Nat → EV) (e : Node) (hi : IntExpr row e) (hw : Within row e) :
    ∃ e', preCalc fp e = .ok e' ∧ RepN fp row e e' := by
  induction e with
  | lit v => exact ⟨_, rfl, infer_rep fp row _ hi hw⟩
  | slot i t => exact ⟨_, rfl, infer_rep fp row _ hi hw⟩
  | un op a ih =>
    unfold preCalc
    by_cases hc : (Node.un op a).isConst = true
    · rw [if_pos hc]; exact ⟨_, rfl, infer_rep fp row _ hi hw⟩
    · rw [if_neg hc]
      obtain ⟨a', h1, h2⟩ := fold_rep (e := a) hi hw.1 (fun _ => ih hi hw.1)
      exact ⟨.un op a', by simp only [h1, bind, Except.bind, pure, Except.pure], un_rep hi hw h2⟩
  | bin op a b iha ihb =>
    unfold preCalc
    by_cases hc : (Node.bin op a b).isConst = true
    · rw [if_pos hc]; exact ⟨_, rfl, infer_rep fp row _ hi hw⟩
    · rw [if_neg hc]
      obtain ⟨a', h1, h2⟩ := fold_rep (e := a) hi.2.1 hw.1 (fun _ => iha hi.2.1 hw.1)
      obtain ⟨b', h3, h4⟩ := fold_rep (e := b) hi.2.2 hw.2.1 (fun _ => ihb hi.2.2 hw.2.1)
      refine ⟨.bin op a' b', ?_, bin_rep hi hw h2 h4⟩
      simp only [h1, h3, bind, Except.bind, pure, Except.pure, swapNode, not_pred hi.1]
      simp

/-- **C60.** An expression of `+ - * %`, unary minus and bit operators over integer columns and literals, of any depth,
has its mathematical value (NULL when an operand is NULL or a divisor is zero), whatever constants are folded and
whatever types the columns have, as long as every intermediate result is in the 64-bit range of its kind. -/
theorem C60_arithmetic (fp : FP) (row : Nat → EV) (e : Node) (hi : IntExpr row e) (hw : Within row e) :
    ∃ v, run fp e row = .ok v ∧ Is v (value row e) ∧
      ∀ x, value row e = some x → Expr.Spec.IntTy v.ty ∧ UnsignedTy v.ty = Unsigned e := by
  obtain ⟨e', h1, t, v, h2, h3⟩ := preCalc_rep fp row e hi hw
  refine ⟨v, ?_, h3.is, fun x hx => ⟨(h3.some hx).2, ?_⟩⟩
  · simp only [run, h1, h2, bind, Except.bind, h3.ev]
  · rw [← isUint_eq]; exact (h3.kind x hx).1

/-- **C60.** Arithmetic with an unsigned operand works modulo 2^64: the result is the mathematical one up to a multiple of
2^64, never undefined. -/
theorem C60_unsigned_wraps (fp : FP) {op : BOp} (hop : op = .add ∨ op = .minus ∨ op = .mul) {i j : Nat} {s t : VTy}
    {row : Nat → EV} (hi : IntExpr row (.slot i s)) (hj : IntExpr row (.slot j t)) (hu : UnsignedTy s ∨ UnsignedTy t)
    {x y : Int} (hx : intOf (row i) = some x) (hy : intOf (row j) = some y) :
    ∃ v z, run fp (.bin op (.slot i s) (.slot j t)) row = .ok v ∧ v.ty = .uint64 ∧ intOp op x y = some z ∧
      intOf v = some (z % 2 ^ 64) := by
  obtain ⟨ta, va, ia, ra⟩ := slot_rep (fp := fp) hi
  obtain ⟨tb, vb, ib, rb⟩ := slot_rep (fp := fp) hj
  simp only [infer, Except.ok.injEq] at ia ib
  subst ia ib
  obtain ⟨ca, va', wa, a1, a2, a3, _, a5, a6⟩ := operand ra (T := .uint64) (Or.inr (Or.inl rfl))
  obtain ⟨cb, vb', wb, b1, b2, b3, _, b5, b6⟩ := operand rb (T := .uint64) (Or.inr (Or.inl rfl))
  have hop' : IsArith op := by rcases hop with h | h | h <;> subst h <;> simp [IsArith]
  have hT : argTy op [s, t] = .uint64 := by
    rw [argTy_arith (Or.inl hop') (by
      intro q hq
      simp only [List.mem_cons, List.not_mem_nil, or_false] at hq
      rcases hq with h | h <;> subst h
      · exact Or.inl hi.1
      · exact Or.inl hj.1), if_pos]
    simp only [List.any_cons, isUint_eq, List.any_nil, Bool.or_false, Bool.or_eq_true, hu, or_true]
  have hnp := not_pred (Or.inl hop' : IsArith op ∨ IsBit op)
  have na : wa.isNull = false := by unfold EV.isNull; rw [a5 x hx]; rfl
  have nb : wb.isNull = false := by unfold EV.isNull; rw [b5 y hy]; rfl
  have e1 := a6 x hx (by simp)
  have e2 := b6 y hy (by simp)
  obtain ⟨z, hz, hb⟩ : ∃ z, intOp op x y = some z ∧ binFn fp op .uint64 wa wb = .ok ⟨.uint64, BitVec.ofInt 64 z, []⟩ := by
    unfold binFn
    rw [if_neg (by simp [na, nb])]
    rcases hop with h | h | h <;> subst h
    · exact ⟨_, rfl, by simp only [e1, e2]; rw [BitVec.ofInt_add]⟩
    · exact ⟨_, rfl, by
        simp only [e1, e2]; rw [Int.sub_eq_add_neg, BitVec.ofInt_add, BitVec.ofInt_neg, BitVec.sub_eq_add_neg]⟩
    · exact ⟨_, rfl, by simp only [e1, e2]; rw [BitVec.ofInt_mul]⟩
  refine ⟨⟨.uint64, BitVec.ofInt 64 z, []⟩, z, ?_, rfl, hz, ?_⟩
  · have hp : preCalc fp (.bin op (.slot i s) (.slot j t)) = .ok (.bin op (.slot i s) (.slot j t)) := by
      simp [preCalc, Node.isConst, foldChild, bind, Except.bind, pure, Except.pure, swapNode, hnp]
    have hts : operandTys op (.slot i s) (.slot j t) (.slot i s) (.slot j t) = [s, t] := by simp [operandTys, hnp, TNode.ty]
    have hrn : rightNode op (.slot i s) (.slot j t) (.slot i s) (.slot j t) = .slot j t := by simp [rightNode, hnp]
    have hRt : retTy op [s, t] = .uint64 := by simp [retTy, hnp, hT]
    simp only [run, hp, infer, hts, hrn, hT, hRt, a1, b1, eval, a2, b2, a3, b3, hb, bind, Except.bind, pure, Except.pure]
    exact cast_same fp rfl
  · have hr : 0 ≤ z % 2 ^ 64 ∧ z % 2 ^ 64 < 2 ^ 64 := ⟨Int.emod_nonneg _ (by decide), Int.emod_lt_of_pos _ (by decide)⟩
    refine intOf_uint64 rfl ?_ hr
    apply BitVec.eq_of_toNat_eq
    simp only [BitVec.toNat_ofInt]
    omega

end BaikalDB.Ops
