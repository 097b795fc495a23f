import Verif.Expr.Props
import Verif.Pred.Spec
namespace BaikalDB.Pred
open BaikalDB.Expr (VTy EV)
open BaikalDB.Expr.Spec
open BaikalDB.Pred.Spec

/-! ## Lists -/
theorem evalAll_eq (E : Env) (r : Row) (cs : List PE) : evalAll E r cs = cs.map (eval E r) := by
  induction cs with
  | nil => rfl
  | cons c cs ih => simp [evalAll, ih]
theorem inferAll_eq (E : Env) (cs : List PE) : inferAll E cs = cs.map (infer E) := by
  induction cs with
  | nil => rfl
  | cons c cs ih => simp [inferAll, ih]
theorem foldAll_eq (E : Env) (cs : List PE) : foldAll E cs = cs.map (fold E) := by
  induction cs with
  | nil => rfl
  | cons c cs ih => simp [foldAll, ih]
theorem shipAll_eq (cs : List PE) : shipAll cs = cs.map ship := by
  induction cs with
  | nil => rfl
  | cons c cs ih => simp [shipAll, ih]
theorem vals_eq (m) (r : SRow) (cs : List Cond) : Cond.vals m r cs = cs.map (Cond.val m r) := by
  induction cs with
  | nil => rfl
  | cons c cs ih => simp [Cond.vals, ih]
theorem isConstAll_eq (cs : List PE) : isConstAll cs = cs.all isConst := by
  induction cs with
  | nil => rfl
  | cons c cs ih => simp [isConstAll, ih]

/-! ## Casts -/
theorem cast_null (E : Env) {v : EV} (h : v.ty = .null) (t : VTy) : cast E v t = v := by
  simp [cast, Expr.castTo, EV.isNull, h]
theorem cast_same (E : Env) (v : EV) : cast E v v.ty = v := by simp [cast, Expr.castTo]
theorem cast_same' (E : Env) {v : EV} {t : VTy} (h : v.ty = t) : cast E v t = v := by subst h; exact cast_same E v

theorem cast_int (E : Env) {v : EV} {t : VTy} {x : Int} (hv : IntTy v.ty) (ht : IntTy t) (hx : sem v = some (.num x))
    (hf : Fits t x) : (cast E v t).ty = t ∧ sem (cast E v t) = some (.num x) := by
  obtain ⟨w, y, h1, h2, h3, _, _, h6⟩ := Expr.C28_int_cast hv ht hx
  have : cast E v t = w := by simp [cast, h1]
  rw [this, h2, h3, h6 hf]
  exact ⟨rfl, rfl⟩

theorem not_null_of_int {v : EV} (h : IntTy v.ty) : v.isNull = false := by
  obtain ⟨t, u, s⟩ := v
  cases t <;> simp [IntTy, EV.isNull] at h ⊢
theorem not_null_of_ordered {v : EV} (h : Ordered v.ty) : v.isNull = false := by
  obtain ⟨t, u, s⟩ := v
  cases t <;> simp [Ordered, EV.isNull] at h ⊢
theorem ordered_of_int {t : VTy} (h : IntTy t) : Ordered t := by cases t <;> simp_all [IntTy, Ordered]
theorem ordered_of_direct {t : VTy} (h : Direct t) : Ordered t := by cases t <;> simp_all [Direct, Ordered]
theorem sem_of_ordered {v : EV} (h : Ordered v.ty) : ∃ x, sem v = some x := by
  obtain ⟨t, u, s⟩ := v
  cases t <;> simp [Ordered] at h <;> simp [sem, intShape]
theorem sem_null {v : EV} (h : v.ty = .null) : sem v = none := by
  obtain ⟨t, u, s⟩ := v
  simp only at h; subst h; rfl

theorem numOf_eq {v : EV} {x : Int} (h : sem v = some (.num x)) : numOf v = x := by simp [numOf, h]

/-! ## Comparison functions -/

/-- Argument types for which a comparison function exists. -/
def ArgTy (t : VTy) : Prop := t = .int64 ∨ t = .uint64 ∨ Direct t

theorem holds_cmp (op : Op) (x y : SVal) : op.holds (x.cmp y) = rel op x y := by
  have hs := Expr.SVal.cmp_swap x y
  have he := @Expr.SVal.cmp_eq x y
  cases h : x.cmp y <;> rw [h] at hs he <;> simp only [Ordering.swap] at hs <;>
    simp only [reduceCtorEq, false_iff, true_iff] at he <;>
    cases op <;> simp only [Op.holds, rel, h, hs.symm, he] <;> first | rfl | (simp [he]; done) | (subst he; simp [h])

theorem cmpFn_sem (op : Op) {t : VTy} (ht : ArgTy t) {x y : EV} (hx : x.ty = t) (hy : y.ty = t) (nx : NotNaN x)
    (ny : NotNaN y) {a b : SVal} (ha : sem x = some a) (hb : sem y = some b) :
    cmpFn op t x y = boolV (rel op a b) := by
  rw [← holds_cmp]
  obtain ⟨tx, ux, sx⟩ := x
  obtain ⟨ty, uy, sy⟩ := y
  simp only at hx hy
  subst hx hy
  rcases ht with rfl | rfl | hd
  · simp only [sem, intShape, Option.some.injEq] at ha hb
    subst ha hb
    simp [cmpFn, EV.isNull, Expr.sget_eq, SVal.cmp]
  · simp only [sem, intShape, Option.some.injEq] at ha hb
    subst ha hb
    simp [cmpFn, EV.isNull, Expr.uget_eq, SVal.cmp]
  · simp only [Direct, List.mem_cons, List.not_mem_nil, or_false] at hd
    rcases hd with rfl | rfl | rfl | rfl | rfl | rfl <;>
      simp only [sem, intShape, Option.some.injEq] at ha hb <;> subst ha hb <;>
      simp [cmpFn, EV.isNull, Expr.sget_eq, Expr.uget_eq, SVal.cmp]
    have n1 := nx.2 rfl
    have n2 := ny.2 rfl
    simp only at n1 n2
    simp [n1, n2]

theorem cmpFn_null (op : Op) (t : VTy) {x y : EV} (h : x.ty = .null ∨ y.ty = .null) : cmpFn op t x y = nullV := by
  unfold cmpFn
  rw [if_pos]
  rcases h with h | h <;> simp [EV.isNull, h]

/-! ## Values of conditions -/

/-- An evaluation result stands for a truth value. -/
def Rep (E : Env) (v : EV) : Option Bool → Prop
  | none => v.isNull = true ∧ truth E v = false
  | some b => v.isNull = false ∧ truth E v = b

theorem truth_bool (E : Env) (b : Bool) : truth E (boolV b) = b := by cases b <;> rfl
theorem rep_bool (E : Env) (b : Bool) : Rep E (boolV b) (some b) := ⟨rfl, truth_bool E b⟩
theorem rep_null (E : Env) : Rep E nullV none := ⟨rfl, rfl⟩

theorem rep_iff_true {E : Env} {v : EV} {b : Option Bool} (h : Rep E v b) :
    (!v.isNull && truth E v) = true ↔ b = some true := by
  cases b with
  | none => simp [Rep] at h; simp [h]
  | some b => simp [Rep] at h; simp [h]

/-! ## Constant nodes -/

theorem isConst_castArg (E : Env) (t : VTy) (e : PE) : isConst (castArg E t e) = isConst e := by
  cases e <;> simp [castArg, isConst]
theorem isConst_retype (t : VTy) (e : PE) : isConst (retype t e) = isConst e := by
  cases e <;> simp [retype, isConst]

mutual
theorem eval_const (E : Env) (r r' : Row) : (e : PE) → isConst e = true → eval E r e = eval E r' e
  | .lit _, _ => rfl
  | .slot _ _, h => by simp [isConst] at h
  | .cmp op arg a b, h => by
    simp only [isConst, Bool.and_eq_true] at h
    simp only [eval, eval_const E r r' a h.1, eval_const E r r' b h.2]
  | .and cs, h => by
    simp only [isConst] at h
    simp only [eval, evalAll_const E r r' cs h]
  | .or cs, h => by
    simp only [isConst] at h
    simp only [eval, evalAll_const E r r' cs h]
  | .xor a b, h => by
    simp only [isConst, Bool.and_eq_true] at h
    simp only [eval, eval_const E r r' a h.1, eval_const E r r' b h.2]
  | .not a, h => by simp only [isConst] at h; simp only [eval, eval_const E r r' a h]
  | .isNull a, h => by simp only [isConst] at h; simp only [eval, eval_const E r r' a h]
  | .isTrue a, h => by simp only [isConst] at h; simp only [eval, eval_const E r r' a h]
  | .isIn a _ _, h => by simp only [isConst] at h; simp only [eval, eval_const E r r' a h]
  | .like _ a _, h => by simp only [isConst] at h; simp only [eval, eval_const E r r' a h]
theorem evalAll_const (E : Env) (r r' : Row) : (cs : List PE) → isConstAll cs = true → evalAll E r cs = evalAll E r' cs
  | [], _ => rfl
  | c :: cs, h => by
    simp only [isConstAll, Bool.and_eq_true] at h
    simp only [evalAll, eval_const E r r' c h.1, evalAll_const E r r' cs h.2]
end

mutual
theorem isConst_infer (E : Env) : (e : PE) → isConst (infer E e) = isConst e
  | .lit _ => rfl
  | .slot _ _ => rfl
  | .cmp op arg a b => by
    simp only [infer, inferCmp, isConst, isConst_castArg, isConst_infer E a]
    split
    · rw [isConst_retype, isConst_infer E b]
    · rw [isConst_infer E b]
  | .and cs => by simp only [infer, isConst, isConst_inferAll E cs]
  | .or cs => by simp only [infer, isConst, isConst_inferAll E cs]
  | .xor a b => by simp only [infer, isConst, isConst_infer E a, isConst_infer E b]
  | .not a => by simp only [infer, isConst, isConst_infer E a]
  | .isNull a => by simp only [infer, isConst, isConst_infer E a]
  | .isTrue a => by simp only [infer, isConst, isConst_infer E a]
  | .isIn a _ _ => by simp only [infer, isConst, isConst_infer E a]
  | .like _ a _ => by simp only [infer, isConst, isConst_infer E a]
theorem isConst_inferAll (E : Env) : (cs : List PE) → isConstAll (inferAll E cs) = isConstAll cs
  | [] => rfl
  | c :: cs => by simp only [inferAll, isConstAll, isConst_infer E c, isConst_inferAll E cs]
end

/-- Computing a constant child does not change what it evaluates to. -/
theorem eval_foldChild (E : Env) (r : Row) (c : PE) : eval E r (infer E (foldChild E c)) = eval E r (infer E c) := by
  unfold foldChild
  split
  · rename_i h
    simp only [Bool.and_eq_true] at h
    simp only [infer, eval, Lit.value, cast_same]
    exact eval_const E noRow r _ (by rw [isConst_infer]; exact h.1)
  · rfl

/-! ## Kleene logic -/

theorem andLoop_rep (E : Env) : ∀ (vs : List EV) (bs : List (Option Bool)) (n : Bool), List.Forall₂ (Rep E) vs bs →
    Rep E (andLoop E n vs) (and3 (if n then none else some true) (bs.foldr and3 (some true))) := by
  intro vs
  induction vs with
  | nil =>
    intro bs n h
    cases h
    cases n
    · exact rep_bool E true
    · exact rep_null E
  | cons v vs ih =>
    intro bs n h
    obtain _ | ⟨hv, h⟩ := h
    rename_i b bs
    simp only [andLoop, List.foldr_cons]
    cases b with
    | none =>
      have h1 : v.isNull = true := hv.1
      simp only [h1, Bool.not_true, Bool.false_and, Bool.false_eq_true, if_false, Bool.or_true]
      have := ih bs true h
      simp only [if_true] at this
      cases n <;> cases hb : bs.foldr and3 (some true) <;> rw [hb] at this <;> simp_all [and3]
      · rename_i b; cases b <;> simp_all
      · rename_i b; cases b <;> simp_all
    | some b =>
      have h1 : v.isNull = false := hv.1
      have h2 : truth E v = b := hv.2
      cases b with
      | false =>
        simp only [h1, h2, Bool.not_false, Bool.and_self, if_true]
        have : and3 (if n then none else some true) (and3 (some false) (bs.foldr and3 (some true))) = some false := by
          cases n <;> rfl
        rw [this]
        exact rep_bool E false
      | true =>
        simp only [h1, h2, Bool.not_true, Bool.and_false, Bool.false_eq_true, if_false, Bool.or_false]
        have := ih bs n h
        have e : and3 (some true) (bs.foldr and3 (some true)) = bs.foldr and3 (some true) := by
          cases bs.foldr and3 (some true) with
          | none => rfl
          | some b => cases b <;> rfl
        rw [e]
        exact this

theorem orLoop_rep (E : Env) : ∀ (vs : List EV) (bs : List (Option Bool)) (n : Bool), List.Forall₂ (Rep E) vs bs →
    Rep E (orLoop E n vs) (or3 (if n then none else some false) (bs.foldr or3 (some false))) := by
  intro vs
  induction vs with
  | nil =>
    intro bs n h
    cases h
    cases n
    · exact rep_bool E false
    · exact rep_null E
  | cons v vs ih =>
    intro bs n h
    obtain _ | ⟨hv, h⟩ := h
    rename_i b bs
    simp only [orLoop, List.foldr_cons]
    cases b with
    | none =>
      have h1 : v.isNull = true := hv.1
      simp only [h1, Bool.not_true, Bool.false_and, Bool.false_eq_true, if_false, Bool.or_true]
      have := ih bs true h
      simp only [if_true] at this
      cases n <;> cases hb : bs.foldr or3 (some false) <;> rw [hb] at this <;> simp_all [or3, and3, not3]
      · rename_i b; cases b <;> simp_all
      · rename_i b; cases b <;> simp_all
    | some b =>
      have h1 : v.isNull = false := hv.1
      have h2 : truth E v = b := hv.2
      cases b with
      | true =>
        simp only [h1, h2, Bool.not_false, Bool.and_self, if_true]
        have : or3 (if n then none else some false) (or3 (some true) (bs.foldr or3 (some false))) = some true := by
          cases n <;> rfl
        rw [this]
        exact rep_bool E true
      | false =>
        simp only [h1, h2, Bool.and_false, Bool.false_eq_true, if_false, Bool.or_false]
        have := ih bs n h
        have e : or3 (some false) (bs.foldr or3 (some false)) = bs.foldr or3 (some false) := by
          cases bs.foldr or3 (some false) with
          | none => rfl
          | some b => cases b <;> rfl
        rw [e]
        exact this

/-! ## Operands -/

/-- What a comparison function receives: NULL, or a value of the argument type. -/
def Arg (t : VTy) (v : EV) (o : Option SVal) : Prop :=
  (v.ty = .null ∧ o = none) ∨ (v.ty = t ∧ NotNaN v ∧ ∃ x, sem v = some x ∧ o = some x)

theorem cmpFn_rep (E : Env) (op : Op) {t : VTy} (ht : ArgTy t) {x y : EV} {a b : Option SVal} (hx : Arg t x a)
    (hy : Arg t y b) : Rep E (cmpFn op t x y) (cmp3 op a b) := by
  rcases hx with ⟨h1, rfl⟩ | ⟨h1, n1, x', s1, rfl⟩
  · rw [cmpFn_null op t (.inl h1)]; exact rep_null E
  · rcases hy with ⟨h2, rfl⟩ | ⟨h2, n2, y', s2, rfl⟩
    · rw [cmpFn_null op t (.inr h2)]; exact rep_null E
    · rw [cmpFn_sem op ht h1 h2 n1 n2 s1 s2]; exact rep_bool E _

theorem notNaN_int {v : EV} (h : IntTy v.ty) : NotNaN v := by
  constructor <;> intro h' <;> rw [h'] at h <;> simp [IntTy] at h

theorem fits_arg {t : VTy} {x : Int} (ht : IntTy t) (h : Fits t x) :
    Fits (if t.isUint then .uint64 else .int64) x := by
  simp only [IntTy, List.mem_cons, List.not_mem_nil, or_false] at ht
  rcases ht with rfl | rfl | rfl | rfl | rfl | rfl | rfl | rfl <;>
    simp only [Fits, range, VTy.isUint, Bool.false_eq_true, if_false, if_true] at h ⊢ <;> omega

theorem intTy_arg (b : Bool) : IntTy (if b then VTy.uint64 else .int64) := by cases b <;> simp [IntTy]
theorem argTy_int {t u : VTy} (ht : IntTy t) (hu : IntTy u) :
    argTy t u = if t.isUint || u.isUint then .uint64 else .int64 := by
  simp only [IntTy, List.mem_cons, List.not_mem_nil, or_false] at ht hu
  rcases ht with rfl | rfl | rfl | rfl | rfl | rfl | rfl | rfl <;>
    rcases hu with rfl | rfl | rfl | rfl | rfl | rfl | rfl | rfl <;> rfl
theorem argTy_direct {t : VTy} (ht : Direct t) : argTy t t = t := by
  simp only [Direct, List.mem_cons, List.not_mem_nil, or_false] at ht
  rcases ht with rfl | rfl | rfl | rfl | rfl | rfl <;> rfl
theorem argOk_bool (b : Bool) : ArgTy (if b then VTy.uint64 else .int64) := by cases b <;> simp [ArgTy]

/-- An integer handed to a comparison as 64-bit. -/
theorem arg_int (E : Env) {v : EV} {t : VTy} (hv : v.ty = .null ∨ (IntTy v.ty ∧ Fits t (numOf v))) (ht : IntTy t) :
    Arg t (cast E v t) (sem v) := by
  rcases hv with h | ⟨h, hf⟩
  · rw [cast_null E h, sem_null h]; exact .inl ⟨h, rfl⟩
  · obtain ⟨x, hx, _, _⟩ := Expr.sem_int h
    rw [numOf_eq hx] at hf
    obtain ⟨h1, h2⟩ := cast_int E h ht hx hf
    exact .inr ⟨h1, notNaN_int (by rw [h1]; exact ht), _, h2, hx⟩

theorem arg_direct (E : Env) {v : EV} {t : VTy} (hv : v.ty = .null ∨ (v.ty = t ∧ NotNaN v)) (ht : Direct t) :
    Arg t (cast E v t) (sem v) := by
  rcases hv with h | ⟨h, hn⟩
  · rw [cast_null E h, sem_null h]; exact .inl ⟨h, rfl⟩
  · rw [cast_same' E h]
    obtain ⟨x, hx⟩ := sem_of_ordered (by rw [h]; exact ordered_of_direct ht : Ordered v.ty)
    exact .inr ⟨h, hn, x, hx, hx⟩

/-- Casting twice to the argument type. -/
theorem cast_cast (E : Env) {v : EV} {t : VTy} {o : Option SVal} (h : Arg t (cast E v t) o) :
    cast E (cast E v t) (cast E v t).ty = cast E v t ∧ cast E (cast E v t) t = cast E v t := by
  refine ⟨cast_same E _, ?_⟩
  rcases h with ⟨h, _⟩ | ⟨h, _⟩
  · exact cast_null E h t
  · exact cast_same' E h

theorem castCol_plain (E : Env) (l : Lit) {t : VTy} (h : ¬ ((t = .datetime ∨ t = .timestamp ∨ t = .date ∨ t = .time) ∧
    (l.v.ty.isInt ∨ l.v.ty = .double ∨ l.v.ty = .float))) : l.castCol E t = ⟨cast E l.v t, (cast E l.v t).ty⟩ := by
  simp only [Lit.castCol, if_neg h]

/-- A literal after type inference, as the comparison function receives it. -/
theorem lit_arg (E : Env) (r : Row) (l : Lit) {t : VTy} (hp : t = .int64 ∨ t = .uint64 ∨ l.v.ty = .null ∨ l.v.ty = t)
    (h : Arg t (cast E l.v t) (sem l.v)) : Arg t (cast E (eval E r (castArg E t (.lit l))) t) (sem l.v) := by
  have hc : l.castCol E t = ⟨cast E l.v t, (cast E l.v t).ty⟩ := by
    apply castCol_plain
    rintro ⟨h1, h2⟩
    rcases hp with rfl | rfl | hp | hp
    · simp at h1
    · simp at h1
    · rw [hp] at h2; simp [VTy.isInt] at h2
    · rw [hp] at h2
      rcases h1 with rfl | rfl | rfl | rfl <;> simp [VTy.isInt] at h2
  simp only [castArg, hc, eval, Lit.value]
  rw [(cast_cast E h).1, (cast_cast E h).2]
  exact h

/-- What a column of a row yields. -/
theorem slot_eval (E : Env) {S : Schema} {r : Row} (hr : RowOk S r) (i : Nat) : cast E (r i) (S i).1 = r i := by
  rcases hr i with h | h
  · exact cast_null E h.1 _
  · exact cast_same' E h.1

theorem slot_arg_int (E : Env) {S : Schema} {r : Row} (hr : RowOk S r) (i : Nat) (ht : IntTy (S i).1) :
    Arg (if (S i).1.isUint then .uint64 else .int64) (cast E (r i) (if (S i).1.isUint then .uint64 else .int64))
      (sem (r i)) := by
  refine arg_int E ?_ (intTy_arg _)
  rcases hr i with h | h
  · exact .inl h.1
  · refine .inr ⟨by rw [h.1]; exact ht, fits_arg ht ?_⟩
    obtain ⟨x, hx, _, hf⟩ := Expr.sem_int (v := r i) (by rw [h.1]; exact ht)
    rw [numOf_eq hx, ← h.1]
    exact hf

theorem slot_arg_direct (E : Env) {S : Schema} {r : Row} (hr : RowOk S r) (i : Nat) (ht : Direct (S i).1) :
    Arg (S i).1 (cast E (r i) (S i).1) (sem (r i)) := by
  refine arg_direct E ?_ ht
  rcases hr i with h | h
  · exact .inl h.1
  · exact .inr h

theorem fits_uint {v : EV} (h : IntTy v.ty) (h0 : 0 ≤ numOf v) : Fits .uint64 (numOf v) := by
  obtain ⟨x, hx, _, hf⟩ := Expr.sem_int h
  rw [numOf_eq hx] at h0 ⊢
  simp only [IntTy, List.mem_cons, List.not_mem_nil, or_false] at h
  rcases h with h | h | h | h | h | h | h | h <;> rw [h] at hf <;> simp only [Fits, range] at hf ⊢ <;> omega
theorem fits_int {v : EV} (h : IntTy v.ty) (h0 : v.ty.isUint = false) : Fits .int64 (numOf v) := by
  obtain ⟨x, hx, _, hf⟩ := Expr.sem_int h
  rw [numOf_eq hx]
  simp only [IntTy, List.mem_cons, List.not_mem_nil, or_false] at h
  rcases h with h | h | h | h | h | h | h | h <;> rw [h] at hf h0 <;> simp only [Fits, range] at hf ⊢ <;>
    first | omega | (simp [VTy.isUint] at h0)

/-- Column against literal. -/
theorem slot_lit_rep (E : Env) {S : Schema} {r : Row} (hr : RowOk S r) (op : Op) (i : Nat) (l : Lit)
    (h : litOk (S i).1 l.v) :
    Rep E (eval E r (inferCmp E op (.slot i (S i).1) (.lit l))) (cmp3 op (sem (r i)) (sem l.v)) := by
  simp only [inferCmp, PE.isSlot, isConst, Bool.and_self, if_true, retype, PE.colTy]
  generalize hq : argTy (S i).1 (S i).1 = q
  have hv : (Lit.v { l with ty := (S i).1 }) = l.v := rfl
  rcases h with hn | ⟨ht, hl, hf⟩ | ⟨ht, hl, hn⟩
  · -- NULL literal
    simp only [castArg, eval]
    have : cast E (Lit.value E (Lit.castCol E { l with ty := (S i).1 } q)) q = l.v := by
      have hc : Lit.castCol E { l with ty := (S i).1 } q = ⟨l.v, l.v.ty⟩ := by
        rw [castCol_plain]
        · simp only [cast_null E hn]
        · rintro ⟨_, h2⟩; simp only [hn] at h2; simp [VTy.isInt] at h2
      rw [hc, Lit.value, cast_same, cast_null E hn]
    rw [this, cmpFn_null op q (.inr hn), sem_null hn]
    cases sem (r i) <;> exact rep_null E
  · have hq' : q = if (S i).1.isUint then .uint64 else .int64 := by
      rw [← hq, argTy_int ht ht, Bool.or_self]
    subst hq'
    simp only [eval]
    refine cmpFn_rep E op (argOk_bool _) ?_ ?_
    · simp only [castArg, eval, slot_eval E hr]
      exact slot_arg_int E hr i ht
    · refine lit_arg E r { l with ty := (S i).1 } (by cases (S i).1.isUint <;> simp) (arg_int E (.inr ⟨hl, ?_⟩) (intTy_arg _))
      show Fits _ (numOf l.v)
      cases hu : (S i).1.isUint <;> rw [hu] at hf <;> simp only [Bool.false_eq_true, if_false, if_true] at hf ⊢
      · exact hf
      · exact fits_uint hl hf
  · rw [argTy_direct ht] at hq
    subst hq
    simp only [eval]
    refine cmpFn_rep E op (.inr (.inr ht)) ?_ ?_
    · simp only [castArg, eval, slot_eval E hr]
      have := slot_arg_direct E hr i ht
      rw [slot_eval E hr] at this
      exact this
    · exact lit_arg E r { l with ty := (S i).1 } (.inr (.inr (.inr hl))) (arg_direct E (.inr ⟨hl, hn⟩) ht)

theorem rel_swap (op : Op) (x y : SVal) : rel op.swap y x = rel op x y := by
  cases op <;> simp [rel, Op.swap, eq_comm]
theorem cmp3_swap (op : Op) (x y : Option SVal) : cmp3 op.swap y x = cmp3 op x y := by
  cases x <;> cases y <;> simp [cmp3, rel_swap]

/-- Two columns. -/
theorem slot_slot_rep (E : Env) {S : Schema} {r : Row} (hr : RowOk S r) (op : Op) (i j : Nat)
    (h : (IntTy (S i).1 ∧ IntTy (S j).1 ∧ (S i).1.isUint = (S j).1.isUint) ∨ (Direct (S i).1 ∧ (S i).1 = (S j).1)) :
    Rep E (eval E r (inferCmp E op (.slot i (S i).1) (.slot j (S j).1))) (cmp3 op (sem (r i)) (sem (r j))) := by
  simp only [inferCmp, PE.isSlot, isConst, Bool.and_false, Bool.false_eq_true, if_false, PE.colTy, castArg, eval,
    slot_eval E hr]
  rcases h with ⟨h1, h2, h3⟩ | ⟨h1, h2⟩
  · rw [argTy_int h1 h2, ← h3, Bool.or_self]
    have := slot_arg_int E hr j h2
    rw [← h3] at this
    exact cmpFn_rep E op (argOk_bool _) (slot_arg_int E hr i h1) this
  · rw [← h2, argTy_direct h1]
    have := slot_arg_direct E hr j (by rw [← h2]; exact h1)
    rw [← h2] at this
    exact cmpFn_rep E op (.inr (.inr h1)) (slot_arg_direct E hr i h1) this

/-- Two literals. -/
theorem lit_lit_rep (E : Env) (r : Row) (op : Op) (l k : Lit) (hl : l.ty = l.v.ty) (hk : k.ty = k.v.ty)
    (h : comparable (.lit l) (.lit k)) :
    Rep E (eval E r (inferCmp E op (.lit l) (.lit k))) (cmp3 op (sem l.v) (sem k.v)) := by
  simp only [inferCmp, PE.isSlot, Bool.false_and, Bool.false_eq_true, if_false, PE.colTy, hl, hk]
  generalize hq : argTy l.v.ty k.v.ty = q
  have null_of : ∀ m : Lit, m.v.ty = .null → cast E (eval E r (castArg E q (.lit m))) q = m.v := by
    intro m hn
    have hc : Lit.castCol E m q = ⟨m.v, m.v.ty⟩ := by
      rw [castCol_plain]
      · simp only [cast_null E hn]
      · rintro ⟨_, h2⟩; simp only [hn] at h2; simp [VTy.isInt] at h2
    simp only [castArg, eval]
    rw [hc, Lit.value, cast_same, cast_null E hn]
  simp only [eval]
  rcases h with h | h | ⟨h1, h2, h3⟩ | ⟨h1, h2, h3, h4⟩
  · rw [null_of l h, cmpFn_null op q (.inl h), sem_null h]
    exact rep_null E
  · rw [null_of k h, cmpFn_null op q (.inr h), sem_null h]
    cases sem l.v <;> exact rep_null E
  · have hq' : q = if l.v.ty.isUint || k.v.ty.isUint then .uint64 else .int64 := by rw [← hq, argTy_int h1 h2]
    subst hq'
    have key : Fits (if l.v.ty.isUint || k.v.ty.isUint then VTy.uint64 else .int64) (numOf l.v) ∧
        Fits (if l.v.ty.isUint || k.v.ty.isUint then VTy.uint64 else .int64) (numOf k.v) := by
      rcases h3 with ⟨a, b⟩ | ⟨a, b⟩
      · rw [a, b]; exact ⟨fits_int h1 a, fits_int h2 b⟩
      · cases hu : l.v.ty.isUint <;> cases hw : k.v.ty.isUint <;> simp only [Bool.or_self, Bool.or_true, Bool.true_or,
          Bool.false_eq_true, if_false, if_true]
        · exact ⟨fits_int h1 hu, fits_int h2 hw⟩
        all_goals exact ⟨fits_uint h1 a, fits_uint h2 b⟩
    refine cmpFn_rep E op (argOk_bool _) ?_ ?_
    · exact lit_arg E r l (by cases (l.v.ty.isUint || k.v.ty.isUint) <;> simp) (arg_int E (.inr ⟨h1, key.1⟩) (intTy_arg _))
    · exact lit_arg E r k (by cases (l.v.ty.isUint || k.v.ty.isUint) <;> simp) (arg_int E (.inr ⟨h2, key.2⟩) (intTy_arg _))
  · rw [h2, argTy_direct h1] at hq
    subst hq
    refine cmpFn_rep E op (.inr (.inr h1)) ?_ ?_
    · exact lit_arg E r l (.inr (.inr (.inr rfl))) (arg_direct E (.inr ⟨rfl, h3⟩) h1)
    · exact lit_arg E r k (.inr (.inr (.inr h2))) (arg_direct E (.inr ⟨h2, h4⟩) h1)

/-! ## IN -/

theorem inTy_int {t u : VTy} (ht : IntTy t) (hu : IntTy u) : inTy t u = .int64 := by
  simp only [IntTy, List.mem_cons, List.not_mem_nil, or_false] at ht hu
  rcases ht with rfl | rfl | rfl | rfl | rfl | rfl | rfl | rfl <;>
    rcases hu with rfl | rfl | rfl | rfl | rfl | rfl | rfl | rfl <;> rfl
theorem inTy_direct {t : VTy} (ht : Direct t) : inTy t t = t := by
  simp only [Direct, List.mem_cons, List.not_mem_nil, or_false] at ht
  rcases ht with rfl | rfl | rfl | rfl | rfl | rfl <;> rfl

theorem ofInt_eq_iff {x y : Int} : BitVec.ofInt 64 x = BitVec.ofInt 64 y ↔ (2 ^ 64 : Int) ∣ x - y := by
  constructor
  · intro h
    have := congrArg BitVec.toNat h
    simp only [BitVec.toNat_ofInt] at this
    omega
  · intro h
    apply BitVec.eq_of_toNat_eq
    simp only [BitVec.toNat_ofInt]
    omega

theorem int_key (E : Env) {v : EV} (h : IntTy v.ty) {x : Int} (hx : sem v = some (.num x)) :
    key E .int64 v = .int (BitVec.ofInt 64 x) := by
  obtain ⟨w, y, h1, h2, h3, h4, h5, h6⟩ := Expr.C28_int_cast h (by simp [IntTy] : IntTy .int64) hx
  have hc : cast E v .int64 = w := by simp [cast, h1]
  obtain ⟨z, hz, hg, _⟩ := Expr.sem_int (v := w) (by rw [h2]; simp [IntTy])
  have : z = y := by rw [h3] at hz; simpa using hz.symm
  subst this
  simp only [key, hc, hg, Option.getD_some, Key.int.injEq, ofInt_eq_iff]
  exact h4

/-- Integers of one column type are found under the same key exactly when they are the same number. -/
theorem int_key_iff (E : Env) {t : VTy} (ht : IntTy t) {v w : EV} (hv : IntTy v.ty) (hw : IntTy w.ty) (fv : Fits t (numOf v))
    (fw : Fits t (numOf w)) : key E .int64 v = key E .int64 w ↔ sem v = sem w := by
  obtain ⟨x, hx, _, _⟩ := Expr.sem_int hv
  obtain ⟨y, hy, _, _⟩ := Expr.sem_int hw
  rw [numOf_eq hx] at fv
  rw [numOf_eq hy] at fw
  rw [int_key E hv hx, int_key E hw hy, hx, hy]
  simp only [Key.int.injEq, ofInt_eq_iff, Option.some.injEq, SVal.num.injEq]
  simp only [IntTy, List.mem_cons, List.not_mem_nil, or_false] at ht
  rcases ht with rfl | rfl | rfl | rfl | rfl | rfl | rfl | rfl <;> simp only [Fits, range] at fv fw <;> omega

theorem bmod32 (a : Nat) : (-4294967296 : Int) ≤ Int.bmod (a : Int) (2 ^ 32) ∧ Int.bmod (a : Int) (2 ^ 32) < 4294967296 := by
  rw [Int.bmod_def]
  split <;> omega

theorem key_datetime (E : Env) (u : BitVec 64) (s : Bytes) :
    key E .datetime ⟨.datetime, u, s⟩ = .int (BitVec.ofInt 64 ((u.toNat : Int) % 2 ^ 64)) := by
  have : cast E ⟨.datetime, u, s⟩ .datetime = ⟨.datetime, u, s⟩ := cast_same' E rfl
  simp only [key, this]
  rw [show Expr.getInt ⟨.datetime, u, s⟩ = some (EV.uget ⟨.datetime, u, s⟩ 64) from rfl, Expr.uget_eq, Option.getD_some]
theorem key_timestamp (E : Env) (u : BitVec 64) (s : Bytes) :
    key E .timestamp ⟨.timestamp, u, s⟩ = .int (BitVec.ofInt 64 ((u.toNat : Int) % 2 ^ 32)) := by
  have : cast E ⟨.timestamp, u, s⟩ .timestamp = ⟨.timestamp, u, s⟩ := cast_same' E rfl
  simp only [key, this]
  rw [show Expr.getInt ⟨.timestamp, u, s⟩ = some (EV.uget ⟨.timestamp, u, s⟩ 32) from rfl, Expr.uget_eq, Option.getD_some]
theorem key_date (E : Env) (u : BitVec 64) (s : Bytes) :
    key E .date ⟨.date, u, s⟩ = .int (BitVec.ofInt 64 ((u.toNat : Int) % 2 ^ 32)) := by
  have : cast E ⟨.date, u, s⟩ .date = ⟨.date, u, s⟩ := cast_same' E rfl
  simp only [key, this]
  rw [show Expr.getInt ⟨.date, u, s⟩ = some (EV.uget ⟨.date, u, s⟩ 32) from rfl, Expr.uget_eq, Option.getD_some]
theorem key_time (E : Env) (u : BitVec 64) (s : Bytes) :
    key E .time ⟨.time, u, s⟩ = .int (BitVec.ofInt 64 (Int.bmod (u.toNat : Int) (2 ^ 32))) := by
  have : cast E ⟨.time, u, s⟩ .time = ⟨.time, u, s⟩ := cast_same' E rfl
  simp only [key, this]
  rw [show Expr.getInt ⟨.time, u, s⟩ = some (EV.sget ⟨.time, u, s⟩ 32) from rfl,
    Expr.sget_eq _ (show 32 ≤ 64 by decide), Option.getD_some]
theorem key_int_iff {x y : Int} (d : x - y < 18446744073709551616)
    (d' : y - x < 18446744073709551616) : Key.int (BitVec.ofInt 64 x) = Key.int (BitVec.ofInt 64 y) ↔ x = y := by
  constructor
  · intro h
    have h := ofInt_eq_iff.mp (Key.int.inj h)
    omega
  · intro h
    rw [h]

theorem direct_key_iff (E : Env) {t : VTy} (ht : Direct t) {v w : EV} (hv : v.ty = t) (hw : w.ty = t) :
    key E t v = key E t w ↔ sem v = sem w := by
  obtain ⟨tv, u, s⟩ := v
  obtain ⟨tw, u', s'⟩ := w
  simp only at hv hw
  subst hv hw
  have h1 := bmod32 u.toNat
  have h2 := bmod32 u'.toNat
  have hu := u.isLt
  have hu' := u'.isLt
  simp only [Direct, List.mem_cons, List.not_mem_nil, or_false] at ht
  rcases ht with rfl | rfl | rfl | rfl | rfl | rfl
  · simp [key, cast, Expr.castTo, sem, intShape]
  · rw [key_datetime, key_datetime, key_int_iff (by omega) (by omega)]
    simp only [sem, intShape, Option.some.injEq, SVal.num.injEq]
  · rw [key_timestamp, key_timestamp, key_int_iff (by omega) (by omega)]
    simp only [sem, intShape, Option.some.injEq, SVal.num.injEq]
  · rw [key_date, key_date, key_int_iff (by omega) (by omega)]
    simp only [sem, intShape, Option.some.injEq, SVal.num.injEq]
  · rw [key_time, key_time, key_int_iff (by omega) (by omega)]
    simp only [sem, intShape, Option.some.injEq, SVal.num.injEq]
  · simp [key, cast, Expr.castTo, sem, intShape]

/-- A chain of ORs of equalities, in closed form. -/
theorem in_chain (x : SVal) (os : List (Option SVal)) : (os.map fun v => cmp3 .eq (some x) v).foldr or3 (some false) =
    if os.contains (some x) then some true else if os.any Option.isNone then none else some false := by
  induction os with
  | nil => rfl
  | cons o os ih =>
    simp only [List.map_cons, List.foldr_cons, ih]
    cases o with
    | none =>
      simp only [cmp3, List.contains_cons, List.any_cons, Option.isNone_none, Bool.true_or, if_true]
      rw [show (some x == none) = false from rfl, Bool.false_or]
      split
      · rfl
      · split <;> rfl
    | some y =>
      simp only [cmp3, rel, List.contains_cons, List.any_cons, Option.isNone_some, Bool.false_or]
      by_cases h : x = y
      · subst h
        simp only [decide_true, beq_self_eq_true, Bool.true_or, if_true]
        rfl
      · have : (some x == some y) = false := by simpa using h
        rw [this, Bool.false_or]
        simp only [h, decide_false]
        split
        · rfl
        · split <;> rfl

theorem in_chain_null (os : List (Option SVal)) (h : os ≠ []) :
    (os.map fun v => cmp3 .eq none v).foldr or3 (some false) = none := by
  induction os with
  | nil => exact absurd rfl h
  | cons o os ih =>
    have e : cmp3 .eq none o = none := by cases o <;> rfl
    simp only [List.map_cons, List.foldr_cons, e]
    cases os with
    | nil => rfl
    | cons o' os' => rw [ih (by simp)]; rfl

/-- What an item of an IN list stands for next to the value looked up. -/
def Item (E : Env) (q : VTy) (x : EV) (v : EV) (o : Option SVal) : Prop :=
  (v.isNull = true ∧ o = none) ∨ (v.isNull = false ∧ (key E q x = key E q v ↔ sem x = o) ∧ o ≠ none)

theorem inFn_rep (E : Env) (q : VTy) {x : EV} {sx : SVal} (hx : x.isNull = false) (hs : sem x = some sx) (vs : List EV)
    (os : List (Option SVal)) (hi : List.Forall₂ (Item E q x) vs os) :
    Rep E (inFn E q vs (os.any Option.isNone) x) ((os.map fun v => cmp3 .eq (some sx) v).foldr or3 (some false)) := by
  rw [in_chain]
  have hc : ((vs.filter fun v => !v.isNull).map (key E q)).contains (key E q x) = os.contains (some sx) := by
    induction hi with
    | nil => rfl
    | cons h _ ih =>
      rename_i v o vs' os'
      rcases h with ⟨h1, rfl⟩ | ⟨h1, h2, h3⟩
      · rw [List.filter_cons_of_neg (by simp [h1]), ih, List.contains_cons]
        rfl
      · rw [List.filter_cons_of_pos (by simp [h1]), List.map_cons, List.contains_cons, List.contains_cons, ih]
        congr 1
        rw [hs] at h2
        rw [Bool.eq_iff_iff]
        simpa using h2
  simp only [inFn, hx, hc, Bool.false_eq_true, if_false]
  by_cases h : os.contains (some sx) = true
  · rw [if_pos h, if_pos h]; exact rep_bool E true
  · rw [if_neg h, if_neg h]
    by_cases h' : os.any Option.isNone = true
    · rw [if_pos h', if_pos h']; exact rep_null E
    · rw [if_neg h', if_neg h']; exact rep_bool E false

end BaikalDB.Pred
