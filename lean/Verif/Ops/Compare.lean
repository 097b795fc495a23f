import Verif.Ops.Props
/-!
# Operators: comparisons (C60)
-/
namespace BaikalDB.Ops
open BaikalDB.Expr BaikalDB.KeyEnc.Spec BaikalDB.Ops.Spec

namespace Spec
/-- `v` is the SQL result of `x op y`: NULL as soon as one of them is. -/
def Truth (op : BOp) (v : EV) (x y : Option Int) : Prop :=
  (x = none ∨ y = none → v.ty = .null) ∧ ∀ m n, x = some m → y = some n → IsBool v (Cmp op m n)
end Spec

theorem isPred_of {op : BOp} (h : IsCmp op) : op.isPred = true := by
  revert h; cases op <;> simp [IsCmp, BOp.isPred]

instance (t : VTy) : Decidable (Expr.Spec.IntTy t) := inferInstanceAs (Decidable (_ ∈ _))

theorem argTy_cmp {op : BOp} (h : IsCmp op) {s t : VTy} (hs : Expr.Spec.IntTy s ∨ s = .null) (ht : Expr.Spec.IntTy t ∨ t = .null) :
    argTy op [s, t] =
      if Expr.Spec.IntTy s ∧ Expr.Spec.IntTy t then if s.isUint || t.isUint then .uint64 else .int64
      else if s = .null ∧ t = .null then .string else .double := by
  simp only [IsCmp, List.mem_cons, List.not_mem_nil, or_false] at h
  have key : argTy .eq [s, t] = if Expr.Spec.IntTy s ∧ Expr.Spec.IntTy t then if s.isUint || t.isUint then .uint64 else .int64
      else if s = .null ∧ t = .null then .string else .double := by
    rcases hs with hs | hs
    · rcases intTy_cases hs with h | h | h | h | h | h | h | h <;> subst h <;> clear hs <;>
      · rcases ht with ht | ht
        · rcases intTy_cases ht with h | h | h | h | h | h | h | h <;> subst h <;> rfl
        · subst ht; rfl
    · subst hs
      rcases ht with ht | ht
      · rcases intTy_cases ht with h | h | h | h | h | h | h | h <;> subst h <;> rfl
      · subst ht; rfl
  rcases h with h | h | h | h | h | h <;> subst h <;> exact key

theorem binFn_cmp (fp : FP) {op : BOp} (hop : IsCmp op) {u : Bool} {a b : EV} {x y : Int} (ha : a.isNull = false)
    (hb : b.isNull = false) (hau : a.u = BitVec.ofInt 64 x) (hbu : b.u = BitVec.ofInt 64 y) (hx : InRange u x) (hy : InRange u y) :
    binFn fp op (if u then .uint64 else .int64) a b = .ok (predInt op x y) := by
  have hn : ¬ (a.isNull = true ∨ b.isNull = true) := by simp [ha, hb]
  unfold binFn
  rw [if_neg hn]
  simp only [IsCmp, List.mem_cons, List.not_mem_nil, or_false] at hop
  cases u with
  | true =>
    have e1 : (((BitVec.ofInt 64 x).toNat : Nat) : Int) = x := by
      rw [toNat_ofInt64 hx]; simp [InRange] at hx; omega
    have e2 : (((BitVec.ofInt 64 y).toNat : Nat) : Int) = y := by
      rw [toNat_ofInt64 hy]; simp [InRange] at hy; omega
    rcases hop with h | h | h | h | h | h <;> subst h <;> simp only [BOp.isPred, if_true, hau, hbu, e1, e2]
  | false =>
    have e1 := toInt_ofInt64 hx
    have e2 := toInt_ofInt64 hy
    rcases hop with h | h | h | h | h | h <;> subst h <;>
      simp only [BOp.isPred, if_true, Bool.false_eq_true, if_false, hau, hbu, e1, e2]

/-- A comparison whose operands are in place. -/
theorem cmp_core {fp : FP} {row : Nat → EV} {op : BOp} (hop : IsCmp op) {a b a' b' : Node} {ta tb : TNode} {va vb : EV} {q : VTy}
    (ia : infer fp a' = .ok ta) (ib : infer fp b' = .ok tb) (ra : Rep fp row a ta va) (rb : Rep fp row b tb vb)
    (hrn : rightNode op a' b' ta tb = tb) (hts : operandTys op a' b' ta tb = [ta.ty, q])
    (hq : q = tb.ty ∨ (q = ta.ty ∧ Expr.Spec.IntTy q))
    (hk : ∀ x y, value row a = some x → value row b = some y → Expr.Spec.IntTy q ∧
      InRange (ta.ty.isUint || q.isUint) x ∧ InRange (ta.ty.isUint || q.isUint) y) :
    ∃ t v, infer fp (.bin op a' b') = .ok t ∧ eval fp row t = .ok v ∧ Truth op v (value row a) (value row b) := by
  have hqt : Expr.Spec.IntTy q ∨ q = .null := by
    rcases hq with h | h
    · rw [h]; exact rb.tty
    · exact Or.inl h.2
  have hT := argTy_cmp hop ra.tty hqt
  have hRt : retTy op [ta.ty, q] = .bool := by simp [retTy, isPred_of hop]
  obtain ⟨T, hTd⟩ : ∃ T, T = argTy op [ta.ty, q] := ⟨_, rfl⟩
  have nn : ∀ t : VTy, t = .null → ¬ Expr.Spec.IntTy t := by intro t h; subst h; simp [Expr.Spec.IntTy]
  have hTa : T = .int64 ∨ T = .uint64 ∨ T = .double ∨ (T = .string ∧ ta.ty = .null) := by
    rw [hTd, hT]
    split
    · split <;> simp
    · split
      · rename_i h; exact Or.inr (Or.inr (Or.inr ⟨rfl, h.1⟩))
      · simp
  have hTb : T = .int64 ∨ T = .uint64 ∨ T = .double ∨ (T = .string ∧ tb.ty = .null) := by
    rw [hTd, hT]
    split
    · split <;> simp
    · split
      · rename_i h
        rcases hq with hq | hq
        · exact Or.inr (Or.inr (Or.inr ⟨rfl, hq ▸ h.2⟩))
        · exact absurd hq.2 (nn _ h.2)
      · simp
  obtain ⟨ca, va', wa, a1, a2, a3, a4, a5, a6⟩ := operand ra hTa
  obtain ⟨cb, vb', wb, b1, b2, b3, b4, b5, b6⟩ := operand rb hTb
  have hinf : infer fp (.bin op a' b') = .ok (.bin op T .bool ca cb) := by
    simp only [infer, ia, ib, hts, hrn, ← hTd, hRt, a1, b1, bind, Except.bind, pure, Except.pure]
  have hev : ∀ r, binFn fp op T wa wb = .ok r → (r.ty = .bool ∨ r.ty = .null) → eval fp row (.bin op T .bool ca cb) = .ok r := by
    intro r hr ht
    simp only [eval, a2, b2, a3, b3, bind, Except.bind, hr]
    exact ret_cast fp ht
  by_cases hnull : value row a = none ∨ value row b = none
  · have hn : binFn fp op T wa wb = .ok nullV := by
      unfold binFn
      rcases hnull with h | h
      · rw [if_pos (by simp [EV.isNull, a4 h])]
      · rw [if_pos (by simp [EV.isNull, b4 h])]
    refine ⟨_, nullV, hinf, hev _ hn (Or.inr rfl), fun _ => rfl, ?_⟩
    intro m n h1 h2
    rcases hnull with h | h
    · rw [h] at h1; exact absurd h1 (by simp)
    · rw [h] at h2; exact absurd h2 (by simp)
  · push Not at hnull
    obtain ⟨x, hx⟩ := Option.ne_none_iff_exists'.1 hnull.1
    obtain ⟨y, hy⟩ := Option.ne_none_iff_exists'.1 hnull.2
    obtain ⟨k1, k2, k3⟩ := hk x y hx hy
    obtain ⟨u, hu⟩ : ∃ u, u = (ta.ty.isUint || q.isUint) := ⟨_, rfl⟩
    have hTu : T = if u then .uint64 else .int64 := by
      rw [hTd, hT, if_pos ⟨(ra.kind x hx).2.1, k1⟩, hu]
    have hnd : T ≠ .double := by rw [hTu]; cases u <;> simp
    have na : wa.isNull = false := by unfold EV.isNull; rw [a5 x hx, hTu]; cases u <;> rfl
    have nb : wb.isNull = false := by unfold EV.isNull; rw [b5 y hy, hTu]; cases u <;> rfl
    rw [← hu] at k2 k3
    have hb := binFn_cmp fp hop na nb (a6 x hx hnd) (b6 y hy hnd) k2 k3
    rw [← hTu] at hb
    have hp := predInt_is hop x y
    refine ⟨_, _, hinf, hev _ hb (Or.inl hp.1), ?_, ?_⟩
    · intro h
      rcases h with h | h
      · exact absurd h hnull.1
      · exact absurd h hnull.2
    · intro m n h1 h2
      rw [hx] at h1; rw [hy] at h2
      simp only [Option.some.injEq] at h1 h2
      subst h1 h2
      exact hp

theorem constant_iff (e : Node) : Constant e ↔ e.isConst = true := by
  induction e with
  | lit v => simp [Constant, Node.isConst]
  | slot i t => simp [Constant, Node.isConst]
  | un op a ih => simpa [Constant, Node.isConst] using ih
  | bin op a b iha ihb => simp [Constant, Node.isConst, iha, ihb]

theorem isSlot_iff (e : Node) : e.isSlot = true ↔ ∃ i t, e = .slot i t := by
  cases e <;> simp [Node.isSlot]

/-- `const_pre_calc` turns neither a constant into something else nor anything into a column. -/
theorem preCalc_shape {fp : FP} {e e' : Node} (h : preCalc fp e = .ok e') :
    e'.isConst = e.isConst ∧ e'.isSlot = e.isSlot ∧ (e.isSlot = true → e' = e) := by
  induction e generalizing e' with
  | lit v => simp only [preCalc, Except.ok.injEq] at h; subst h; exact ⟨rfl, rfl, fun _ => rfl⟩
  | slot i t => simp only [preCalc, Except.ok.injEq] at h; subst h; exact ⟨rfl, rfl, fun _ => rfl⟩
  | un op a ih =>
    unfold preCalc at h
    split at h
    · simp only [Except.ok.injEq] at h; subst h; exact ⟨rfl, rfl, fun _ => rfl⟩
    · rename_i hc
      have hca : a.isConst = false := by simpa [Node.isConst] using hc
      simp only [foldChild, hca, Bool.false_eq_true, if_false] at h
      cases hp : preCalc fp a with
      | error e => rw [hp] at h; simp [bind, Except.bind] at h
      | ok a' =>
        rw [hp] at h
        simp only [bind, Except.bind, pure, Except.pure, Except.ok.injEq] at h
        subst h
        have := ih hp
        exact ⟨this.1, rfl, by simp [Node.isSlot]⟩
  | bin op a b iha ihb =>
    unfold preCalc at h
    split at h
    · simp only [Except.ok.injEq] at h; subst h; exact ⟨rfl, rfl, fun _ => rfl⟩
    · have sub : ∀ c c', (∀ e', preCalc fp c = .ok e' → e'.isConst = c.isConst) → foldChild fp c (preCalc fp c) = .ok c' →
          c'.isConst = c.isConst := by
        intro c c' ih hf
        unfold foldChild at hf
        split at hf
        · rename_i hcc
          split at hf
          · simp only [Except.ok.injEq] at hf; subst hf; rfl
          · cases hv : constValue fp c with
            | error e => rw [hv] at hf; simp [Except.map] at hf
            | ok v => rw [hv] at hf; simp only [Except.map, Except.ok.injEq] at hf; subst hf; rw [hcc]; rfl
        · exact ih c' hf
      cases ha : foldChild fp a (preCalc fp a) with
      | error e => rw [ha] at h; simp [bind, Except.bind] at h
      | ok a' =>
        cases hb : foldChild fp b (preCalc fp b) with
        | error e => rw [ha, hb] at h; simp [bind, Except.bind] at h
        | ok b' =>
          rw [ha, hb] at h
          simp only [bind, Except.bind, pure, Except.pure, Except.ok.injEq] at h
          subst h
          have ca := sub a a' (fun e' he => (iha he).1) ha
          have cb := sub b b' (fun e' he => (ihb he).1) hb
          unfold swapNode
          split
          · exact ⟨by simp [Node.isConst, ca, cb, Bool.and_comm], rfl, by simp [Node.isSlot]⟩
          · exact ⟨by simp [Node.isConst, ca, cb], rfl, by simp [Node.isSlot]⟩

theorem fold_shape {fp : FP} {c c' : Node} (hf : foldChild fp c (preCalc fp c) = .ok c') :
    c'.isConst = c.isConst ∧ c'.isSlot = c.isSlot ∧ (c.isSlot = true → c' = c) ∧ (c.isConst = true → c'.isLit = true) := by
  unfold foldChild at hf
  split at hf
  · rename_i hcc
    have hs : c.isSlot = false := by cases c <;> simp [Node.isConst, Node.isSlot] at hcc ⊢
    split at hf
    · rename_i hl
      simp only [Except.ok.injEq] at hf; subst hf; exact ⟨rfl, rfl, fun _ => rfl, fun _ => hl⟩
    · cases hv : constValue fp c with
      | error e => rw [hv] at hf; simp [Except.map] at hf
      | ok v =>
        rw [hv] at hf; simp only [Except.map, Except.ok.injEq] at hf; subst hf
        exact ⟨by rw [hcc]; rfl, by rw [hs]; rfl, by simp [hs], fun _ => rfl⟩
  · rename_i hcc
    have := preCalc_shape hf
    exact ⟨this.1, this.2.1, this.2.2, fun h => absurd h hcc⟩

theorem lit_infer {fp : FP} {e : Node} {t : TNode} (hl : e.isLit = true) (h : infer fp e = .ok t) (s : VTy) : t.setTy s = t := by
  cases e with
  | lit v => simp only [infer, Except.ok.injEq] at h; subst h; rfl
  | slot i t => simp [Node.isLit] at hl
  | un op a => simp [Node.isLit] at hl
  | bin op a b => simp [Node.isLit] at hl

theorem truth_swap {op : BOp} {v : EV} {x y : Option Int} (hop : IsCmp op) (h : Truth op.swap v x y) : Truth op v y x := by
  refine ⟨fun hn => h.1 hn.symm, fun m n hm hn => ?_⟩
  have := h.2 n m hn hm
  have e : Cmp op.swap n m ↔ Cmp op m n := by
    simp only [IsCmp, List.mem_cons, List.not_mem_nil, or_false] at hop
    rcases hop with h | h | h | h | h | h <;> subst h <;> simp [BOp.swap, Cmp] <;> omega
  exact ⟨this.1, fun hp => this.2.1 (e.2 hp), fun hp => this.2.2 (fun hq => hp (e.1 hq))⟩

theorem isCmp_swap {op : BOp} (h : IsCmp op) : IsCmp op.swap := by
  simp only [IsCmp, List.mem_cons, List.not_mem_nil, or_false] at h ⊢
  rcases h with h | h | h | h | h | h <;> subst h <;> simp [BOp.swap]

/-- A column on the left and a folded constant on the right. -/
theorem col_const {fp : FP} {row : Nat → EV} {op : BOp} (hop : IsCmp op) {i : Nat} {s : VTy} {c c' : Node}
    (hi : IntExpr row (.slot i s)) (hc : RepN fp row c c') (hl : c'.isLit = true) (hcc : c'.isConst = true)
    (hr : ∀ x y, intOf (row i) = some x → value row c = some y → InRange (UnsignedTy s) x ∧ InRange (UnsignedTy s) y) :
    ∃ t v, infer fp (.bin op (.slot i s) c') = .ok t ∧ eval fp row t = .ok v ∧
      Truth op v (intOf (row i)) (value row c) := by
  obtain ⟨ta, va, ia, ra⟩ := slot_rep (fp := fp) hi
  obtain ⟨tb, vb, ib, rb⟩ := hc
  have ia' := ia
  simp only [infer, Except.ok.injEq] at ia'
  subst ia'
  have hts : operandTys op (.slot i s) c' (.slot i s) tb = [s, s] := by
    simp [operandTys, isPred_of hop, Node.isSlot, hcc, TNode.ty]
  have hrn : rightNode op (.slot i s) c' (.slot i s) tb = tb := by
    unfold rightNode; split
    · exact lit_infer hl ib _
    · rfl
  refine cmp_core hop ia ib ra rb hrn hts (Or.inr ⟨rfl, hi.1⟩) ?_
  intro x y hx hy
  have := hr x y hx hy
  simp only [TNode.ty, Bool.or_self, isUint_eq]
  exact ⟨hi.1, this⟩

/-- **C60.** A comparison of two integer expressions of any depth is the comparison of their mathematical values (NULL
when one of them is NULL), wherever constants stand and however they are folded, as long as both values are in the range
the comparison is carried out in: signed when both sides are signed, unsigned when one is; next to a column a constant
has no say in that. -/
theorem C60_compare (fp : FP) (row : Nat → EV) {op : BOp} (hop : IsCmp op) {a b : Node} (ha : IntExpr row a)
    (hb : IntExpr row b) (hwa : Within row a) (hwb : Within row b) {u : Bool} (hu : CmpKind a b u)
    (hr : ∀ x y, value row a = some x → value row b = some y → InRange u x ∧ InRange u y) :
    ∃ v, run fp (.bin op a b) row = .ok v ∧ Truth op v (value row a) (value row b) := by
  have hpred := isPred_of hop
  -- operands that are not a column next to a constant
  have plain : ∀ a' b', RepN fp row a a' → RepN fp row b b' → ¬ (a'.isSlot = true ∧ b'.isConst = true) →
      u = (Unsigned a || Unsigned b) →
      ∃ t v, infer fp (.bin op a' b') = .ok t ∧ eval fp row t = .ok v ∧ Truth op v (value row a) (value row b) := by
    rintro a' b' ⟨ta, va, ia, ra⟩ ⟨tb, vb, ib, rb⟩ hn hu
    refine cmp_core hop ia ib ra rb (q := tb.ty) ?_ ?_ (Or.inl rfl) ?_
    · unfold rightNode; rw [if_neg (fun h => hn ⟨h.2.1, h.2.2⟩)]
    · unfold operandTys; rw [if_neg (fun h => hn ⟨h.2.1, h.2.2⟩)]
    · intro x y hx hy
      have k1 := ra.kind x hx
      have k2 := rb.kind y hy
      rw [k1.2.2, k2.2.2, ← hu]
      exact ⟨k2.2.1, hr x y hx hy⟩
  by_cases hc : (Node.bin op a b).isConst = true
  · have hcc := hc
    simp only [Node.isConst, Bool.and_eq_true] at hcc
    have hns : a.isSlot = false := by
      have := hcc.1; cases a <;> simp [Node.isConst, Node.isSlot] at this ⊢
    have hk : u = (Unsigned a || Unsigned b) := by
      cases hu with
      | colConst i t c h => simp [Node.isSlot] at hns
      | constCol i t c h => simp [Node.isConst] at hcc
      | other a b h1 h2 => rfl
    obtain ⟨t, v, h1, h2, h3⟩ := plain a b (infer_rep fp row a ha hwa) (infer_rep fp row b hb hwb) (by simp [hns]) hk
    refine ⟨v, ?_, h3⟩
    have hp : preCalc fp (.bin op a b) = .ok (.bin op a b) := by unfold preCalc; rw [if_pos hc]
    simp only [run, hp, h1, h2, bind, Except.bind]
  · obtain ⟨a', fa, rpa⟩ := fold_rep (fp := fp) ha hwa (fun _ => preCalc_rep fp row a ha hwa)
    obtain ⟨b', fb, rpb⟩ := fold_rep (fp := fp) hb hwb (fun _ => preCalc_rep fp row b hb hwb)
    obtain ⟨sa1, sa2, sa3, sa4⟩ := fold_shape fa
    obtain ⟨sb1, sb2, sb3, sb4⟩ := fold_shape fb
    have hp : preCalc fp (.bin op a b) = .ok (swapNode op a' b') := by
      unfold preCalc; rw [if_neg hc]
      simp only [fa, fb, bind, Except.bind, pure, Except.pure]
    suffices hs : ∃ t v, infer fp (swapNode op a' b') = .ok t ∧ eval fp row t = .ok v ∧ Truth op v (value row a) (value row b) by
      obtain ⟨t, v, h1, h2, h3⟩ := hs
      refine ⟨v, ?_, h3⟩
      simp only [run, hp, h1, h2, bind, Except.bind]
    cases hu with
    | colConst i t c h =>
      have hcc := (constant_iff b).1 h
      have hea : a' = .slot i t := sa3 rfl
      have hsw : swapNode op a' b' = .bin op (.slot i t) b' := by
        rw [hea]; unfold swapNode; simp [Node.isConst]
      rw [hsw]
      exact col_const hop ha rpb (sb4 hcc) (by rw [sb1, hcc]) hr
    | constCol i t c h =>
      have hcc := (constant_iff a).1 h
      have heb : b' = .slot i t := sb3 rfl
      have hsw : swapNode op a' b' = .bin op.swap (.slot i t) a' := by
        rw [heb]; unfold swapNode
        rw [if_pos]
        exact ⟨hpred, by rw [sa1, hcc], rfl, rfl⟩
      rw [hsw]
      obtain ⟨t, v, h1, h2, h3⟩ := col_const (isCmp_swap hop) hb rpa (sa4 hcc) (by rw [sa1, hcc])
        (fun x y hx hy => (hr y x hy hx).symm)
      exact ⟨t, v, h1, h2, truth_swap hop h3⟩
    | other _ _ h1 h2 =>
      have hsw : swapNode op a' b' = .bin op a' b' := by
        unfold swapNode
        rw [if_neg]
        rintro ⟨_, h3, _, h4⟩
        obtain ⟨i, t, hb'⟩ := (isSlot_iff b).1 (by rw [← sb2]; exact h4)
        exact h2 i t hb' ((constant_iff a).2 (by rw [← sa1]; exact h3))
      rw [hsw]
      refine plain a' b' rpa rpb ?_ rfl
      rintro ⟨h3, h4⟩
      obtain ⟨i, t, ha'⟩ := (isSlot_iff a).1 (by rw [← sa2]; exact h3)
      exact h1 i t ha' ((constant_iff b).2 (by rw [← sb1]; exact h4))

end BaikalDB.Ops
