import Mathlib.Data.List.Forall2
import Verif.Like.Props
import Verif.Pred.Lemmas
/-!
# C25, C27: WHERE conditions follow SQL's three-valued logic
-/
namespace BaikalDB.Pred
open BaikalDB.Expr (VTy EV)
open BaikalDB.Expr.Spec
open BaikalDB.Pred.Spec

/-! ## Proof -/

theorem asBool_rep (E : Env) {v : EV} (h : v.ty = .null ∨ v.ty = .bool ∨ IntTy v.ty) : Rep E v (asBool (sem v)) := by
  rcases h with h | h | h
  · rw [sem_null h]
    obtain ⟨t, u, s⟩ := v
    simp only at h; subst h
    exact ⟨rfl, rfl⟩
  · obtain ⟨t, u, s⟩ := v
    simp only at h; subst h
    refine ⟨rfl, ?_⟩
    simp only [truth, Expr.getInt, Expr.uget_eq]
  · obtain ⟨x, hx, hg, _⟩ := Expr.sem_int h
    rw [hx]
    exact ⟨not_null_of_int h, by simp only [truth, hg]⟩

theorem term_slot {S : Schema} {i : Nat} {t : VTy} {x : Term} (h : term S (.slot i t) = some x) :
    t = (S i).1 ∧ Ordered t ∧ x = .col i := by
  simp only [term] at h
  split at h
  · rename_i h'; simp only [Option.some.injEq] at h; exact ⟨h'.1, h'.2, h.symm⟩
  · exact absurd h (by simp)
theorem term_lit {S : Schema} {l : Lit} {x : Term} (h : term S (.lit l) = some x) :
    l.ty = l.v.ty ∧ (l.v.ty = .null ∨ Ordered l.v.ty) ∧ x = .const (sem l.v) := by
  simp only [term] at h
  split at h
  · rename_i h'; simp only [Option.some.injEq] at h; exact ⟨h'.1, h'.2, h.symm⟩
  · exact absurd h (by simp)

theorem sem_none_iff {v : EV} (h : v.ty = .null ∨ Ordered v.ty) : (sem v).isNone = v.isNull := by
  rcases h with h | h
  · rw [sem_null h]; simp [EV.isNull, h]
  · obtain ⟨x, hx⟩ := sem_of_ordered h
    rw [hx, not_null_of_ordered h]; rfl

theorem row_ordered {S : Schema} {r : Row} (hr : RowOk S r) {i : Nat} (ho : Ordered (S i).1) :
    (r i).ty = .null ∨ Ordered (r i).ty := by
  rcases hr i with h | h
  · exact .inl h.1
  · exact .inr (by rw [h.1]; exact ho)

/-- Operands of IS NULL. -/
theorem term_isNull (E : Env) {S : Schema} {r : Row} (hr : RowOk S r) {a : PE} {t : Term} (h : term S a = some t) :
    (eval E r (infer E (fold E a))).isNull = (t.val (rowOf r)).isNone := by
  cases a <;> try (simp [term] at h; done)
  · obtain ⟨h1, h2, rfl⟩ := term_lit h
    simp only [fold, infer, eval, Lit.value, cast_same' E h1.symm, Term.val, sem_none_iff h2]
  · obtain ⟨rfl, h2, rfl⟩ := term_slot h
    simp only [fold, infer, eval, slot_eval E hr, Term.val, rowOf, sem_none_iff (row_ordered hr h2)]

theorem xor_rep (E : Env) {v w : EV} {a b : Option Bool} (hv : Rep E v a) (hw : Rep E w b) :
    Rep E (if v.isNull || w.isNull then nullV else boolV (truth E v != truth E w)) (xor3 a b) := by
  cases a <;> cases b <;> simp only [Rep] at hv hw <;> simp only [hv.1, hw.1, Bool.or_false, Bool.or_true,
    if_true, Bool.or_self, Bool.false_eq_true, if_false, xor3]
  · exact rep_null E
  · exact rep_null E
  · exact rep_null E
  · rw [hv.2, hw.2]; exact rep_bool E _

theorem not_rep (E : Env) {v : EV} {a : Option Bool} (hv : Rep E v a) :
    Rep E (if v.isNull then v else boolV (!truth E v)) (not3 a) := by
  cases a <;> simp only [Rep] at hv
  · rw [if_pos hv.1]; exact hv
  · rw [if_neg (by simp [hv.1]), hv.2]; exact rep_bool E _

theorem denote_cmp {S : Schema} {op : Op} {arg : VTy} {a b : PE} {p : Cond} (h : denote S (.cmp op arg a b) = some p) :
    comparable a b ∧ ∃ x y, term S a = some x ∧ term S b = some y ∧ p = .cmp op x y := by
  simp only [denote] at h
  split at h
  · rename_i hc
    split at h
    · rename_i x y hx hy
      simp only [Option.some.injEq] at h
      exact ⟨hc, x, y, hx, hy, h.symm⟩
    · exact absurd h (by simp)
  · exact absurd h (by simp)

/-- Comparisons. -/
theorem cmp_rep (E : Env) {S : Schema} {r : Row} (hr : RowOk S r) {op : Op} {arg : VTy} {a b : PE} {p : Cond}
    (h : denote S (.cmp op arg a b) = some p) :
    Rep E (eval E r (infer E (fold E (.cmp op arg a b)))) (p.val Like.likeOne (rowOf r)) := by
  obtain ⟨hc, x, y, hx, hy, rfl⟩ := denote_cmp h
  cases a <;> cases b <;> try (simp [comparable] at hc; done)
  · rename_i l k
    obtain ⟨h1, h2, rfl⟩ := term_lit hx
    obtain ⟨h3, h4, rfl⟩ := term_lit hy
    simp only [fold, isConst, Bool.and_self, if_true, infer, Cond.val, Term.val]
    exact lit_lit_rep E r op l k h1 h3 hc
  · rename_i l i t
    obtain ⟨h1, h2, rfl⟩ := term_lit hx
    obtain ⟨rfl, h4, rfl⟩ := term_slot hy
    simp only [fold, isConst, Bool.and_false, Bool.false_eq_true, if_false, PE.isSlot, Bool.and_self, if_true, foldChild,
      PE.isLit, Bool.not_true, infer, Cond.val, Term.val]
    rw [← cmp3_swap]
    exact slot_lit_rep E hr op.swap i l hc
  · rename_i i t l
    obtain ⟨rfl, h4, rfl⟩ := term_slot hx
    obtain ⟨h1, h2, rfl⟩ := term_lit hy
    simp only [fold, isConst, Bool.false_and, Bool.false_eq_true, if_false, foldChild, PE.isLit, Bool.not_true,
      Bool.and_false, infer, Cond.val, Term.val]
    exact slot_lit_rep E hr op i l hc
  · rename_i i t j u
    obtain ⟨rfl, h4, rfl⟩ := term_slot hx
    obtain ⟨rfl, h4', rfl⟩ := term_slot hy
    simp only [fold, isConst, Bool.false_and, Bool.false_eq_true, if_false, foldChild, infer, Cond.val, Term.val]
    exact slot_slot_rep E hr op i j hc

theorem retyped_value (E : Env) {t : VTy} {l : Lit} (h : listable t l.v) :
    (Lit.value E { l with ty := t }).isNull = l.v.isNull ∧ sem (Lit.value E { l with ty := t }) = sem l.v ∧
    ((l.v.ty = .null) ∨ (IntTy t ∧ IntTy (Lit.value E { l with ty := t }).ty ∧ Fits t (numOf (Lit.value E { l with ty := t }))) ∨
     (Direct t ∧ (Lit.value E { l with ty := t }).ty = t)) := by
  simp only [Lit.value]
  rcases h with h | ⟨h1, h2, h3⟩ | ⟨h1, h2, h3⟩
  · rw [cast_null E h]; exact ⟨rfl, rfl, .inl h⟩
  · obtain ⟨x, hx, _, _⟩ := Expr.sem_int h2
    rw [numOf_eq hx] at h3
    obtain ⟨h4, h5⟩ := cast_int E h2 h1 hx h3
    refine ⟨?_, by rw [h5, hx], .inr (.inl ⟨h1, by rw [h4]; exact h1, by rw [numOf_eq h5]; exact h3⟩)⟩
    rw [not_null_of_int h2, not_null_of_int (by rw [h4]; exact h1)]
  · rw [cast_same' E h2]; exact ⟨rfl, rfl, .inr (.inr ⟨h1, h2⟩)⟩

/-- IN lists. -/
theorem in_rep (E : Env) {S : Schema} {r : Row} (hr : RowOk S r) {a : PE} {items : List Lit} {hn : Bool} {p : Cond}
    (h : denote S (.isIn a items hn) = some p) :
    Rep E (eval E r (infer E (fold E (.isIn a items hn)))) (p.val Like.likeOne (rowOf r)) := by
  cases a <;> try (simp [denote] at h; done)
  rename_i i t
  simp only [denote] at h
  split at h
  · rename_i hc
    obtain ⟨rfl, hnn, rfl, hne, hall⟩ := hc
    simp only [Option.some.injEq] at h
    subst h
    simp only [fold, infer, PE.isSlot, if_true, PE.colTy, eval, slot_eval E hr, nullFlag, Bool.false_or, Cond.val, Term.val,
      rowOf, List.map_map]
    have hhead : (List.map (Lit.ty ∘ fun l => ({ l with ty := (S i).1 } : Lit)) items).headD .null = (S i).1 := by
      cases items with
      | nil => exact absurd rfl hne
      | cons l ls => rfl
    rw [hhead]
    have hany : (items.any fun l => l.v.isNull) = (items.map fun l => sem l.v).any Option.isNone := by
      rw [List.any_map]
      rw [Bool.eq_iff_iff, List.any_eq_true, List.any_eq_true]
      have : ∀ l ∈ items, (Option.isNone ∘ fun l : Lit => sem l.v) l = l.v.isNull := by
        intro l hl
        apply sem_none_iff
        rcases hall l hl with h | ⟨_, h, _⟩ | ⟨h, h', _⟩
        · exact .inl h
        · exact .inr (ordered_of_int h)
        · exact .inr (by rw [h']; exact ordered_of_direct h)
      constructor
      · rintro ⟨l, hl, h⟩; exact ⟨l, hl, by rw [this l hl]; exact h⟩
      · rintro ⟨l, hl, h⟩; exact ⟨l, hl, by rw [← this l hl]; exact h⟩
    rw [hany]
    rcases hr i with hnull | hval
    · rw [sem_null hnull.1]
      have := in_chain_null (items.map fun l => sem l.v) (by simpa using hne)
      rw [List.map_map] at this
      rw [this]
      have : (r i).isNull = true := by simp [EV.isNull, hnull.1]
      simp only [inFn, this, if_true]
      exact rep_null E
    · -- a value of the column's type
      obtain ⟨sx, hsx⟩ := sem_of_ordered (v := r i) (by rw [hval.1]; exact hnn)
      rw [hsx]
      have := inFn_rep E (inTy (S i).1 (S i).1) (x := r i) (sx := sx) (not_null_of_ordered (by rw [hval.1]; exact hnn)) hsx
        (items.map (Lit.value E ∘ fun l => ({ l with ty := (S i).1 } : Lit))) (items.map fun l => sem l.v) ?_
      · rw [List.map_map] at this
        exact this
      · rw [List.forall₂_map_left_iff, List.forall₂_map_right_iff]
        rw [List.forall₂_same]
        intro l hl
        obtain ⟨h1, h2, h3⟩ := retyped_value E (hall l hl)
        simp only [Function.comp]
        rcases h3 with h3 | ⟨ht, h4, h5⟩ | ⟨ht, h4⟩
        · exact .inl ⟨by rw [h1]; simp [EV.isNull, h3], sem_null h3⟩
        · refine .inr ⟨not_null_of_int h4, ?_, ?_⟩
          · rw [inTy_int ht ht, ← h2]
            refine int_key_iff E ht (by rw [hval.1]; exact ht) h4 ?_ h5
            obtain ⟨x, hx, _, hf⟩ := Expr.sem_int (v := r i) (by rw [hval.1]; exact ht)
            rw [numOf_eq hx, ← hval.1]; exact hf
          · obtain ⟨x, hx, _, _⟩ := Expr.sem_int h4
            rw [← h2, hx]; simp
        · refine .inr ⟨not_null_of_ordered (by rw [h4]; exact ordered_of_direct ht), ?_, ?_⟩
          · rw [inTy_direct ht, ← h2]
            exact direct_key_iff E ht hval.1 h4
          · obtain ⟨x, hx⟩ := sem_of_ordered (v := Lit.value E { l with ty := (S i).1 }) (by rw [h4]; exact ordered_of_direct ht)
            rw [← h2, hx]; simp
  · exact absurd h (by simp)

mutual
/-- Folding, type inference and evaluation give the three-valued meaning. -/
theorem prep_rep (E : Env) {S : Schema} {r : Row} (hr : RowOk S r) : (e : PE) → (p : Cond) → denote S e = some p →
    Rep E (eval E r (infer E (fold E e))) (p.val Like.likeOne (rowOf r))
  | .lit l, p, h => by
    simp only [denote] at h
    split at h
    · rename_i hc
      simp only [Option.map_eq_some_iff] at h
      obtain ⟨x, hx, rfl⟩ := h
      obtain ⟨h1, h2, rfl⟩ := term_lit hx
      simp only [fold, infer, eval, Lit.value, cast_same' E h1.symm, Cond.val, Term.val]
      exact asBool_rep E hc
    · exact absurd h (by simp)
  | .slot i t, p, h => by
    simp only [denote] at h
    split at h
    · rename_i hc
      simp only [Option.map_eq_some_iff] at h
      obtain ⟨x, hx, rfl⟩ := h
      obtain ⟨rfl, h2, rfl⟩ := term_slot hx
      simp only [fold, infer, eval, slot_eval E hr, Cond.val, Term.val, rowOf]
      refine asBool_rep E ?_
      rcases hr i with h | h
      · exact .inl h.1
      · rw [h.1]; exact .inr hc
    · exact absurd h (by simp)
  | .cmp op arg a b, p, h => cmp_rep E hr h
  | .and cs, p, h => by
    simp only [denote, Option.map_eq_some_iff] at h
    obtain ⟨ps, hps, rfl⟩ := h
    have ih := prepAll_rep E hr cs ps hps
    have e : eval E r (infer E (fold E (.and cs))) = andLoop E false (cs.map fun c => eval E r (infer E (fold E c))) := by
      simp only [fold]
      split <;> simp [infer, eval, foldAll_eq, inferAll_eq, evalAll_eq, Function.comp_def, eval_foldChild]
    have := andLoop_rep E _ _ false (List.forall₂_map_left_iff.mpr (List.forall₂_map_right_iff.mpr ih))
    rw [e]
    simp only [Cond.val, vals_eq]
    convert this using 1
    cases (ps.map fun p => p.val Like.likeOne (rowOf r)).foldr and3 (some true) with
    | none => rfl
    | some b => cases b <;> rfl
  | .or cs, p, h => by
    simp only [denote, Option.map_eq_some_iff] at h
    obtain ⟨ps, hps, rfl⟩ := h
    have ih := prepAll_rep E hr cs ps hps
    have e : eval E r (infer E (fold E (.or cs))) = orLoop E false (cs.map fun c => eval E r (infer E (fold E c))) := by
      simp only [fold]
      split <;> simp [infer, eval, foldAll_eq, inferAll_eq, evalAll_eq, Function.comp_def, eval_foldChild]
    have := orLoop_rep E _ _ false (List.forall₂_map_left_iff.mpr (List.forall₂_map_right_iff.mpr ih))
    rw [e]
    simp only [Cond.val, vals_eq]
    convert this using 1
    cases (ps.map fun p => p.val Like.likeOne (rowOf r)).foldr or3 (some false) with
    | none => rfl
    | some b => cases b <;> rfl
  | .xor a b, p, h => by
    simp only [denote] at h
    split at h
    · rename_i x y hx hy
      simp only [Option.some.injEq] at h
      subst h
      have e : eval E r (infer E (fold E (.xor a b))) = eval E r (.xor (infer E (fold E a)) (infer E (fold E b))) := by
        simp only [fold]
        split <;> simp only [infer, eval, eval_foldChild]
      rw [e]
      exact xor_rep E (prep_rep E hr a x hx) (prep_rep E hr b y hy)
    · exact absurd h (by simp)
  | .not a, p, h => by
    simp only [denote, Option.map_eq_some_iff] at h
    obtain ⟨q, hq, rfl⟩ := h
    exact not_rep E (prep_rep E hr a q hq)
  | .isNull a, p, h => by
    simp only [denote] at h
    split at h
    · rename_i t ht
      simp only [Option.some.injEq] at h
      subst h
      simp only [fold, infer, eval, Cond.val]
      rw [term_isNull E hr ht]
      exact rep_bool E _
    · simp only [Option.map_eq_some_iff] at h
      obtain ⟨q, hq, rfl⟩ := h
      have := prep_rep E hr a q hq
      simp only [fold, infer, eval, Cond.val]
      cases hv : q.val Like.likeOne (rowOf r) <;> rw [hv] at this <;> simp only [Rep] at this <;> rw [this.1] <;>
        exact rep_bool E _
  | .isTrue a, p, h => by
    simp only [denote, Option.map_eq_some_iff] at h
    obtain ⟨q, hq, rfl⟩ := h
    have := prep_rep E hr a q hq
    simp only [fold, infer, eval, Cond.val]
    cases hv : q.val Like.likeOne (rowOf r) with
    | none => rw [hv] at this; simp only [Rep] at this; rw [this.2]; exact rep_bool E _
    | some b => rw [hv] at this; simp only [Rep] at this; rw [this.2]; cases b <;> exact rep_bool E _
  | .isIn a items hn, p, h => in_rep E hr h
  | .like cs a pat, p, h => by
    cases a <;> try (simp [denote] at h; done)
    rename_i i t
    simp only [denote] at h
    split at h
    · rename_i hc
      obtain ⟨rfl, ht, hnn⟩ := hc
      simp only [Option.some.injEq] at h
      subst h
      have hv := hr i
      simp only [hnn, Bool.false_eq_true, and_false, false_or, ht] at hv
      simp only [fold, infer, eval, slot_eval E hr, Cond.val, Term.val, rowOf, cast_same' E hv.1]
      have : sem (r i) = some (.str (r i).s) := by simp [sem, hv.1, intShape]
      rw [this]
      exact rep_bool E _
    · exact absurd h (by simp)
theorem prepAll_rep (E : Env) {S : Schema} {r : Row} (hr : RowOk S r) : (cs : List PE) → (ps : List Cond) →
    denoteAll S cs = some ps →
    List.Forall₂ (fun c p => Rep E (eval E r (infer E (fold E c))) (p.val Like.likeOne (rowOf r))) cs ps
  | [], ps, h => by
    simp only [denoteAll, Option.some.injEq] at h
    subst h
    exact .nil
  | c :: cs, ps, h => by
    simp only [denoteAll] at h
    split at h
    · rename_i x xs hx hxs
      simp only [Option.some.injEq] at h
      subst h
      exact .cons (prep_rep E hr c x hx) (prepAll_rep E hr cs xs hxs)
    · exact absurd h (by simp)
end

/-! ## The claims -/

/-- **C25.** For every condition covered by `denote` (any nesting of AND, OR, XOR, NOT, IS NULL, IS TRUE over comparisons,
IN and LIKE), every row of the table and every choice of the unmodelled conversions, the folded and typed condition
evaluates to the value three-valued logic gives: NULL for unknown, otherwise true or false. -/
theorem C25_three_valued (E : Env) {S : Schema} {r : Row} (hr : RowOk S r) {e : PE} {p : Cond} (h : denote S e = some p) :
    (eval E r (prepare E e)).isNull = (p.val Like.likeOne (rowOf r)).isNone ∧
    ∀ b, p.val Like.likeOne (rowOf r) = some b → truth E (eval E r (prepare E e)) = b := by
  have := prep_rep E hr e p h
  unfold prepare
  cases hv : p.val Like.likeOne (rowOf r) <;> rw [hv] at this <;> simp only [Rep] at this
  · exact ⟨this.1, by simp⟩
  · exact ⟨this.1, by rintro b ⟨⟩; exact this.2⟩

/-- **C25.** A filter over conjuncts keeps, in order, exactly the rows on which every conjunct is true: neither false nor
unknown. -/
theorem C25_filter (E : Env) {S : Schema} {cs : List PE} {ps : List Cond} (h : denoteAll S cs = some ps) (rows : List Row)
    (hr : ∀ r ∈ rows, RowOk S r) :
    filter E (cs.map (prepare E)) rows = rows.filter fun r => ps.all fun p => p.val Like.likeOne (rowOf r) == some true := by
  apply List.filter_congr
  intro r hm
  have hf := prepAll_rep E (hr r hm) cs ps h
  clear h
  simp only [keep]
  induction hf with
  | nil => rfl
  | cons h1 _ ih =>
    rw [List.map_cons, List.all_cons, List.all_cons, ih]
    congr 1
    rw [Bool.eq_iff_iff, beq_iff_eq]
    exact rep_iff_true h1

/-- A column after folding and typing. -/
theorem denote_in {S : Schema} {i : Nat} {items : List Lit} (ho : Ordered (S i).1) (hne : items ≠ [])
    (hi : ∀ l ∈ items, listable (S i).1 l.v) :
    denote S (.isIn (.slot i (S i).1) items false) = some (.isIn (.col i) (items.map fun l => sem l.v)) := by
  simp only [denote]
  rw [if_pos ⟨trivial, ho, trivial, hne, hi⟩]

/-- **C27.** `column IN (list)` is true exactly when some element equals the column's value, unknown exactly when the
column is NULL or there is no such element but the list has a NULL, and false otherwise. -/
theorem C27_in_list (E : Env) {S : Schema} {r : Row} (hr : RowOk S r) (i : Nat) (items : List Lit) (ho : Ordered (S i).1)
    (hne : items ≠ []) (hi : ∀ l ∈ items, listable (S i).1 l.v) :
    let v := eval E r (prepare E (.isIn (.slot i (S i).1) items false))
    ((v.isNull = false ∧ truth E v = true) ↔ ∃ x, sem (r i) = some x ∧ ∃ l ∈ items, sem l.v = some x) ∧
    (v.isNull = true ↔ sem (r i) = none ∨ ((∃ l ∈ items, sem l.v = none) ∧ ∀ l ∈ items, sem l.v ≠ sem (r i))) := by
  have hd := denote_in ho hne hi
  have := prep_rep E hr _ _ hd
  simp only [Cond.val, Term.val, rowOf] at this
  unfold prepare
  generalize eval E r (infer E (fold E (.isIn (.slot i (S i).1) items false))) = v at this
  cases hs : sem (r i) with
  | none =>
    rw [hs, in_chain_null _ (by simpa using hne)] at this
    simp only [Rep] at this
    simp [this.1]
  | some x =>
    rw [hs, in_chain] at this
    have hm : ((items.map fun l => sem l.v).contains (some x) = true) ↔ ∃ l ∈ items, sem l.v = some x := by
      simp
    have hn : ((items.map fun l => sem l.v).any Option.isNone = true) ↔ ∃ l ∈ items, sem l.v = none := by
      simp
    by_cases h1 : (items.map fun l => sem l.v).contains (some x) = true
    · rw [if_pos h1] at this
      simp only [Rep] at this
      have h2 := hm.mp h1
      refine ⟨⟨fun _ => ⟨x, rfl, h2⟩, fun _ => this⟩, ⟨fun h => absurd h (by simp [this.1]), ?_⟩⟩
      rintro (h | ⟨_, h⟩)
      · exact absurd h (by simp)
      · obtain ⟨l, hl, e⟩ := h2; exact absurd e (h l hl)
    · rw [if_neg h1] at this
      have h2 := fun h => h1 (hm.mpr h)
      by_cases h3 : (items.map fun l => sem l.v).any Option.isNone = true
      · rw [if_pos h3] at this
        simp only [Rep] at this
        refine ⟨⟨fun h => absurd h.1 (by simp [this.1]), ?_⟩, ⟨fun _ => .inr ⟨hn.mp h3, fun l hl e => h2 ⟨l, hl, e⟩⟩, fun _ => this.1⟩⟩
        rintro ⟨y, hy, h⟩
        cases hy
        exact absurd h h2
      · rw [if_neg h3] at this
        simp only [Rep] at this
        refine ⟨⟨fun h => absurd h.2 (by simp [this.2]), ?_⟩, ⟨fun h => absurd h (by simp [this.1]), ?_⟩⟩
        · rintro ⟨y, hy, h⟩
          cases hy
          exact absurd h h2
        · rintro (h | ⟨h, _⟩)
          · exact absurd h (by simp)
          · exact absurd (hn.mpr h) h3

/-- **C27.** `column NOT IN (list)` keeps a row exactly when the column is not NULL, the list has no NULL and no element
equals the column's value. -/
theorem C27_not_in (E : Env) {S : Schema} {r : Row} (hr : RowOk S r) (i : Nat) (items : List Lit) (ho : Ordered (S i).1)
    (hne : items ≠ []) (hi : ∀ l ∈ items, listable (S i).1 l.v) :
    keep E r [prepare E (.not (.isIn (.slot i (S i).1) items false))] = true ↔
      sem (r i) ≠ none ∧ ∀ l ∈ items, sem l.v ≠ none ∧ sem l.v ≠ sem (r i) := by
  have hd : denote S (.not (.isIn (.slot i (S i).1) items false)) = some (.not (.isIn (.col i) (items.map fun l => sem l.v))) := by
    rw [denote, denote_in ho hne hi]; rfl
  have := rep_iff_true (prep_rep E hr _ _ hd)
  simp only [keep, List.all_cons, List.all_nil, Bool.and_true]
  unfold prepare
  rw [this]
  simp only [Cond.val, Term.val, rowOf]
  cases hs : sem (r i) with
  | none => rw [in_chain_null _ (by simpa using hne)]; simp [not3]
  | some x =>
    rw [in_chain]
    by_cases h1 : (items.map fun l => sem l.v).contains (some x) = true
    · rw [if_pos h1]
      simp only [not3, Bool.not_true, Option.some.injEq, Bool.false_eq_true, false_iff, not_and]
      intro _ h
      simp only [List.contains_eq_mem, List.mem_map, decide_eq_true_eq] at h1
      obtain ⟨l, hl, e⟩ := h1
      exact (h l hl).2 e
    · rw [if_neg h1]
      simp only [List.contains_eq_mem, List.mem_map, decide_eq_true_eq, not_exists, not_and] at h1
      by_cases h3 : (items.map fun l => sem l.v).any Option.isNone = true
      · rw [if_pos h3]
        simp only [not3, reduceCtorEq, false_iff, not_and]
        intro _ h
        simp only [List.any_map, List.any_eq_true, Function.comp, Option.isNone_iff_eq_none] at h3
        obtain ⟨l, hl, e⟩ := h3
        exact (h l hl).1 e
      · rw [if_neg h3]
        simp only [List.any_map, List.any_eq_true, Function.comp, Option.isNone_iff_eq_none, not_exists, not_and] at h3
        simp only [not3, Bool.not_false, true_iff]
        exact ⟨by simp, fun l hl => ⟨h3 l hl, h1 l hl⟩⟩

/-! ## Conditions sent to storage nodes -/

mutual
theorem ship_same : (e : PE) → nullFreeIn e = true → ship e = e
  | .lit _, _ => rfl
  | .slot _ _, _ => rfl
  | .cmp _ _ a b, h => by
    simp only [nullFreeIn, Bool.and_eq_true] at h
    simp only [ship, ship_same a h.1, ship_same b h.2]
  | .and cs, h => by simp only [nullFreeIn] at h; simp only [ship, shipAll_same cs h]
  | .or cs, h => by simp only [nullFreeIn] at h; simp only [ship, shipAll_same cs h]
  | .xor a b, h => by
    simp only [nullFreeIn, Bool.and_eq_true] at h
    simp only [ship, ship_same a h.1, ship_same b h.2]
  | .not a, h => by simp only [nullFreeIn] at h; simp only [ship, ship_same a h]
  | .isNull a, h => by simp only [nullFreeIn] at h; simp only [ship, ship_same a h]
  | .isTrue a, h => by simp only [nullFreeIn] at h; simp only [ship, ship_same a h]
  | .isIn a items hn, h => by
    simp only [nullFreeIn, Bool.and_eq_true, Bool.not_eq_true'] at h
    cases a <;> simp [PE.isSlot] at h
    simp [ship, h.1]
  | .like _ a _, h => by simp only [nullFreeIn] at h; simp only [ship, ship_same a h]
theorem shipAll_same : (cs : List PE) → nullFreeInAll cs = true → shipAll cs = cs
  | [], _ => rfl
  | c :: cs, h => by
    simp only [nullFreeInAll, Bool.and_eq_true] at h
    simp only [shipAll, ship_same c h.1, shipAll_same cs h.2]
end

/-- The truth value of an evaluation result. -/
def val3 (E : Env) (v : EV) : Option Bool := if v.isNull then none else some (truth E v)

theorem rep_val3 (E : Env) (v : EV) : Rep E v (val3 E v) := by
  unfold val3
  split
  · rename_i h
    refine ⟨h, ?_⟩
    obtain ⟨t, u, s⟩ := v
    cases t <;> simp [EV.isNull] at h <;> rfl
  · rename_i h
    exact ⟨by simpa using h, rfl⟩

theorem val3_of_rep {E : Env} {v : EV} {b : Option Bool} (h : Rep E v b) : val3 E v = b := by
  cases b <;> simp only [Rep] at h <;> simp [val3, h]

/-- Equal, or unknown turned into false. -/
def Weak (a b : Option Bool) : Prop := a = b ∨ (a = none ∧ b = some false)

theorem weak_and {a b c d : Option Bool} (h1 : Weak a b) (h2 : Weak c d) : Weak (and3 a c) (and3 b d) := by
  rcases h1 with rfl | ⟨rfl, rfl⟩ <;> rcases h2 with rfl | ⟨rfl, rfl⟩
  · exact .inl rfl
  · cases a with
    | none => exact .inr ⟨rfl, rfl⟩
    | some a => cases a <;> simp [Weak, and3]
  · cases c with
    | none => exact .inr ⟨rfl, rfl⟩
    | some c => cases c <;> simp [Weak, and3]
  · exact .inr ⟨rfl, rfl⟩
theorem weak_or {a b c d : Option Bool} (h1 : Weak a b) (h2 : Weak c d) : Weak (or3 a c) (or3 b d) := by
  rcases h1 with rfl | ⟨rfl, rfl⟩ <;> rcases h2 with rfl | ⟨rfl, rfl⟩
  · exact .inl rfl
  · cases a with
    | none => exact .inl rfl
    | some a => cases a <;> simp [Weak, or3, and3, not3]
  · cases c with
    | none => exact .inl rfl
    | some c => cases c <;> simp [Weak, or3, and3, not3]
  · exact .inr ⟨rfl, rfl⟩

theorem forall2_rep (E : Env) (vs : List EV) : List.Forall₂ (Rep E) vs (vs.map (val3 E)) := by
  rw [List.forall₂_map_right_iff, List.forall₂_same]
  exact fun v _ => rep_val3 E v

theorem and3_true (b : Option Bool) : and3 (some true) b = b := by
  cases b with
  | none => rfl
  | some b => cases b <;> rfl
theorem or3_false (b : Option Bool) : or3 (some false) b = b := by
  cases b with
  | none => rfl
  | some b => cases b <;> rfl

theorem val3_and (E : Env) (vs : List EV) : val3 E (andLoop E false vs) = (vs.map (val3 E)).foldr and3 (some true) := by
  have := val3_of_rep (andLoop_rep E vs _ false (forall2_rep E vs))
  rw [this]; simp only [Bool.false_eq_true, if_false, and3_true]
theorem val3_or (E : Env) (vs : List EV) : val3 E (orLoop E false vs) = (vs.map (val3 E)).foldr or3 (some false) := by
  have := val3_of_rep (orLoop_rep E vs _ false (forall2_rep E vs))
  rw [this]; simp only [Bool.false_eq_true, if_false, or3_false]

mutual
theorem ship_weak (E : Env) (r : Row) : (e : PE) → nullInPositive e = true →
    Weak (val3 E (eval E r e)) (val3 E (eval E r (ship e)))
  | .and cs, h => by
    simp only [nullInPositive] at h
    simp only [ship, eval, val3_and]
    exact shipAll_weak_and E r cs h
  | .or cs, h => by
    simp only [nullInPositive] at h
    simp only [ship, eval, val3_or]
    exact shipAll_weak_or E r cs h
  | .isTrue a, h => by
    simp only [nullInPositive] at h
    have ih := ship_weak E r a h
    have h1 := rep_val3 E (eval E r a)
    have h2 := rep_val3 E (eval E r (ship a))
    simp only [ship, eval]
    rcases ih with ih | ⟨e1, e2⟩
    · rw [← ih] at h2
      have : truth E (eval E r a) = truth E (eval E r (ship a)) := by
        cases hv : val3 E (eval E r a) <;> rw [hv] at h1 h2 <;> simp only [Rep] at h1 h2 <;> rw [h1.2, h2.2]
      rw [this]; exact .inl rfl
    · rw [e1] at h1; rw [e2] at h2
      simp only [Rep] at h1 h2
      rw [h1.2, h2.2]; exact .inl rfl
  | .isIn a items hn, h => by
    simp only [nullInPositive] at h
    cases a <;> simp [PE.isSlot] at h
    simp only [ship, eval, PE.colTy]
    cases hn with
    | false => exact .inl rfl
    | true =>
      simp only [inFn]
      split
      · exact .inl rfl
      · split
        · exact .inl rfl
        · exact .inr ⟨rfl, rfl⟩
  | .lit l, h => .inl rfl
  | .slot i t, h => .inl rfl
  | .cmp op t a b, h => by simp only [nullInPositive] at h; rw [ship_same _ h]; exact .inl rfl
  | .xor a b, h => by simp only [nullInPositive] at h; rw [ship_same _ h]; exact .inl rfl
  | .not a, h => by simp only [nullInPositive] at h; rw [ship_same _ h]; exact .inl rfl
  | .isNull a, h => by simp only [nullInPositive] at h; rw [ship_same _ h]; exact .inl rfl
  | .like c a p, h => by simp only [nullInPositive] at h; rw [ship_same _ h]; exact .inl rfl
theorem shipAll_weak_and (E : Env) (r : Row) : (cs : List PE) → nullInPositiveAll cs = true →
    Weak (((evalAll E r cs).map (val3 E)).foldr and3 (some true)) (((evalAll E r (shipAll cs)).map (val3 E)).foldr and3 (some true))
  | [], _ => .inl rfl
  | c :: cs, h => by
    simp only [nullInPositiveAll, Bool.and_eq_true] at h
    simp only [shipAll, evalAll, List.map_cons, List.foldr_cons]
    exact weak_and (ship_weak E r c h.1) (shipAll_weak_and E r cs h.2)
theorem shipAll_weak_or (E : Env) (r : Row) : (cs : List PE) → nullInPositiveAll cs = true →
    Weak (((evalAll E r cs).map (val3 E)).foldr or3 (some false)) (((evalAll E r (shipAll cs)).map (val3 E)).foldr or3 (some false))
  | [], _ => .inl rfl
  | c :: cs, h => by
    simp only [nullInPositiveAll, Bool.and_eq_true] at h
    simp only [shipAll, evalAll, List.map_cons, List.foldr_cons]
    exact weak_or (ship_weak E r c h.1) (shipAll_weak_or E r cs h.2)
end

theorem nullFree_castArg (E : Env) (t : VTy) (e : PE) : nullFreeIn (castArg E t e) = nullFreeIn e := by
  cases e <;> simp [castArg, nullFreeIn]
theorem nullFree_retype (t : VTy) (e : PE) : nullFreeIn (retype t e) = nullFreeIn e := by
  cases e <;> simp [retype, nullFreeIn]
theorem nullFree_foldChild (E : Env) (e : PE) (h : nullFreeIn e = true) : nullFreeIn (foldChild E e) = true := by
  unfold foldChild; split
  · rfl
  · exact h
theorem nullFreeAll_foldChild (E : Env) (cs : List PE) (h : nullFreeInAll cs = true) :
    nullFreeInAll (cs.map (foldChild E)) = true := by
  induction cs with
  | nil => rfl
  | cons c cs ih =>
    simp only [nullFreeInAll, Bool.and_eq_true] at h
    simp only [List.map_cons, nullFreeInAll, nullFree_foldChild E c h.1, ih h.2, Bool.and_self]

theorem infer_slot (E : Env) {a : PE} (h : a.isSlot = true) : infer E a = a ∧ fold E a = a := by
  cases a <;> simp [PE.isSlot] at h
  exact ⟨rfl, rfl⟩

mutual
theorem nullFree_infer (E : Env) : (e : PE) → nullFreeIn e = true → nullFreeIn (infer E e) = true
  | .lit _, _ => rfl
  | .slot _ _, _ => rfl
  | .cmp _ _ a b, h => by
    simp only [nullFreeIn, Bool.and_eq_true] at h
    simp only [infer, inferCmp, nullFreeIn, nullFree_castArg, nullFree_infer E a h.1, Bool.true_and]
    split
    · rw [nullFree_retype]; exact nullFree_infer E b h.2
    · exact nullFree_infer E b h.2
  | .and cs, h => by simp only [nullFreeIn] at h; simp only [infer, nullFreeIn, nullFree_inferAll E cs h]
  | .or cs, h => by simp only [nullFreeIn] at h; simp only [infer, nullFreeIn, nullFree_inferAll E cs h]
  | .xor a b, h => by
    simp only [nullFreeIn, Bool.and_eq_true] at h
    simp only [infer, nullFreeIn, nullFree_infer E a h.1, nullFree_infer E b h.2, Bool.and_self]
  | .not a, h => by simp only [nullFreeIn] at h; simp only [infer, nullFreeIn, nullFree_infer E a h]
  | .isNull a, h => by simp only [nullFreeIn] at h; simp only [infer, nullFreeIn, nullFree_infer E a h]
  | .isTrue a, h => by simp only [nullFreeIn] at h; simp only [infer, nullFreeIn, nullFree_infer E a h]
  | .isIn a items hn, h => by
    simp only [nullFreeIn, Bool.and_eq_true] at h
    simp only [infer, (infer_slot E h.1.1).1, h.1.1, if_true, nullFreeIn, Bool.and_eq_true, List.all_map]
    exact ⟨⟨trivial, h.1.2⟩, h.2⟩
  | .like _ a _, h => by simp only [nullFreeIn] at h; simp only [infer, nullFreeIn, nullFree_infer E a h]
theorem nullFree_inferAll (E : Env) : (cs : List PE) → nullFreeInAll cs = true → nullFreeInAll (inferAll E cs) = true
  | [], _ => rfl
  | c :: cs, h => by
    simp only [nullFreeInAll, Bool.and_eq_true] at h
    simp only [inferAll, nullFreeInAll, nullFree_infer E c h.1, nullFree_inferAll E cs h.2, Bool.and_self]
end

mutual
theorem nullFree_fold (E : Env) : (e : PE) → nullFreeIn e = true → nullFreeIn (fold E e) = true
  | .lit _, _ => rfl
  | .slot _ _, _ => rfl
  | .cmp _ _ a b, h => by
    simp only [nullFreeIn, Bool.and_eq_true] at h
    have ha := nullFree_fold E a h.1
    have hb := nullFree_fold E b h.2
    simp only [fold]
    split
    · simp only [nullFreeIn, ha, hb, Bool.and_self]
    · split <;> simp only [nullFreeIn, ha, hb, nullFree_foldChild, Bool.and_self]
  | .and cs, h => by
    simp only [nullFreeIn] at h
    have := nullFree_foldAll E cs h
    simp only [fold]; split <;> simp only [nullFreeIn, this, nullFreeAll_foldChild]
  | .or cs, h => by
    simp only [nullFreeIn] at h
    have := nullFree_foldAll E cs h
    simp only [fold]; split <;> simp only [nullFreeIn, this, nullFreeAll_foldChild]
  | .xor a b, h => by
    simp only [nullFreeIn, Bool.and_eq_true] at h
    have ha := nullFree_fold E a h.1
    have hb := nullFree_fold E b h.2
    simp only [fold]; split <;> simp only [nullFreeIn, ha, hb, nullFree_foldChild, Bool.and_self]
  | .not a, h => by simp only [nullFreeIn] at h; simp only [fold, nullFreeIn, nullFree_fold E a h]
  | .isNull a, h => by simp only [nullFreeIn] at h; simp only [fold, nullFreeIn, nullFree_fold E a h]
  | .isTrue a, h => by simp only [nullFreeIn] at h; simp only [fold, nullFreeIn, nullFree_fold E a h]
  | .isIn a items hn, h => by
    simp only [nullFreeIn, Bool.and_eq_true, Bool.not_eq_true'] at h
    have hf : nullFlag a = false := by cases a <;> simp [PE.isSlot] at h; rfl
    have hany : (items.any fun l => l.v.isNull) = false := by
      rw [List.any_eq_false]; intro l hl
      have := List.all_eq_true.mp h.2 l hl
      simpa using this
    simp only [fold, (infer_slot E h.1.1).2, nullFreeIn, h.1.1, h.1.2, h.2, hf, hany]
    rfl
  | .like _ a _, h => by simp only [nullFreeIn] at h; simp only [fold, nullFreeIn, nullFree_fold E a h]
theorem nullFree_foldAll (E : Env) : (cs : List PE) → nullFreeInAll cs = true → nullFreeInAll (foldAll E cs) = true
  | [], _ => rfl
  | c :: cs, h => by
    simp only [nullFreeInAll, Bool.and_eq_true] at h
    simp only [foldAll, nullFreeInAll, nullFree_fold E c h.1, nullFree_foldAll E cs h.2, Bool.and_self]
end

theorem positive_foldChild (E : Env) (e : PE) (h : nullInPositive e = true) : nullInPositive (foldChild E e) = true := by
  unfold foldChild; split
  · rfl
  · exact h
theorem positiveAll_foldChild (E : Env) (cs : List PE) (h : nullInPositiveAll cs = true) :
    nullInPositiveAll (cs.map (foldChild E)) = true := by
  induction cs with
  | nil => rfl
  | cons c cs ih =>
    simp only [nullInPositiveAll, Bool.and_eq_true] at h
    simp only [List.map_cons, nullInPositiveAll, positive_foldChild E c h.1, ih h.2, Bool.and_self]

/-- Conditions that are not AND, OR, IS TRUE or IN stay so. -/
theorem positive_other (E : Env) {e : PE} (h : nullInPositive e = nullFreeIn e)
    (h' : nullInPositive (infer E (fold E e)) = nullFreeIn (infer E (fold E e))) (hp : nullInPositive e = true) :
    nullInPositive (infer E (fold E e)) = true := by
  rw [h']; exact nullFree_infer E _ (nullFree_fold E e (h ▸ hp))

mutual
theorem positive_prepare (E : Env) : (e : PE) → nullInPositive e = true → nullInPositive (infer E (fold E e)) = true
  | .and cs, h => by
    simp only [nullInPositive] at h
    simp only [fold]
    split
    · simp only [infer, nullInPositive]; exact (positive_prepareAll E cs h).1
    · simp only [infer, nullInPositive]; exact (positive_prepareAll E cs h).2
  | .or cs, h => by
    simp only [nullInPositive] at h
    simp only [fold]
    split
    · simp only [infer, nullInPositive]; exact (positive_prepareAll E cs h).1
    · simp only [infer, nullInPositive]; exact (positive_prepareAll E cs h).2
  | .isTrue a, h => by
    simp only [nullInPositive] at h
    simp only [fold, infer, nullInPositive, positive_prepare E a h]
  | .isIn a items hn, h => by
    simp only [nullInPositive] at h
    simp only [fold, infer, nullInPositive, (infer_slot E h).1, (infer_slot E h).2, h]
  | .lit _, h => rfl
  | .slot _ _, h => rfl
  | .cmp op t a b, h => by
    refine positive_other E rfl ?_ h
    simp only [fold]
    split
    · rfl
    · split <;> rfl
  | .xor a b, h => by
    refine positive_other E rfl ?_ h
    simp only [fold]
    split <;> rfl
  | .not a, h => positive_other E rfl rfl h
  | .isNull a, h => positive_other E rfl rfl h
  | .like c a p, h => positive_other E rfl rfl h
theorem positive_prepareAll (E : Env) : (cs : List PE) → nullInPositiveAll cs = true →
    nullInPositiveAll (inferAll E (foldAll E cs)) = true ∧
    nullInPositiveAll (inferAll E ((foldAll E cs).map (foldChild E))) = true
  | [], _ => ⟨rfl, rfl⟩
  | c :: cs, h => by
    simp only [nullInPositiveAll, Bool.and_eq_true] at h
    have h1 := positive_prepare E c h.1
    have h2 := positive_prepareAll E cs h.2
    have h3 : nullInPositive (infer E (foldChild E (fold E c))) = true := by
      unfold foldChild
      split
      · rfl
      · exact h1
    simp only [foldAll, inferAll, List.map_cons, nullInPositiveAll, h1, h2.1, h2.2, h3, Bool.and_self, and_self]
end

/-- **C25.** Pushed down to the storage nodes, which do not receive the mark that an IN list has a NULL, a filter still
keeps exactly the rows on which every conjunct is true, provided that every IN with a NULL in its list stands below AND, OR
and IS TRUE only. -/
theorem C25_pushed_down (E : Env) {S : Schema} {cs : List PE} {ps : List Cond} (h : denoteAll S cs = some ps)
    (hp : nullInPositiveAll cs = true) (rows : List Row) (hr : ∀ r ∈ rows, RowOk S r) :
    filter E (cs.map fun e => ship (prepare E e)) rows =
      rows.filter fun r => ps.all fun p => p.val Like.likeOne (rowOf r) == some true := by
  rw [← C25_filter E h rows hr]
  apply List.filter_congr
  intro r _
  simp only [keep, List.all_map]
  clear h
  induction cs with
  | nil => rfl
  | cons c cs ih =>
    simp only [nullInPositiveAll, Bool.and_eq_true] at hp
    rw [List.all_cons, List.all_cons, ih hp.2]
    congr 1
    have hw := ship_weak E r (prepare E c) (positive_prepare E c hp.1)
    have h1 := rep_iff_true (rep_val3 E (eval E r (prepare E c)))
    have h2 := rep_iff_true (rep_val3 E (eval E r (ship (prepare E c))))
    simp only [Function.comp]
    rw [Bool.eq_iff_iff, h1, h2]
    rcases hw with e | ⟨e1, e2⟩
    · rw [e]
    · rw [e1, e2]; simp

/-! ## Cases -/

/-- A table of a nullable BIGINT, a nullable VARCHAR, a NOT NULL VARCHAR and a TINYINT. -/
def Spec.exSchema : Schema
  | 0 => (.int64, true)
  | 1 => (.string, true)
  | 2 => (.string, false)
  | 3 => (.int8, true)
  | 4 => (.uint64, true)
  | _ => (.int64, true)

/-- An integer literal, and the NULL literal. -/
def Spec.exInt (x : Int) : Lit := ⟨⟨.int64, BitVec.ofInt 64 x, []⟩, .int64⟩
def Spec.exNull : Lit := ⟨nullV, .null⟩
def Spec.exStr (s : Bytes) : Lit := ⟨⟨.string, 0, s⟩, .string⟩

/-- `NOT (5 > a AND b = 'x') OR a IN (1, NULL)`. -/
def Spec.exCond : PE :=
  .or [.not (.and [.cmp .gt .invalid (.lit (exInt 5)) (.slot 0 .int64),
                   .cmp .eq .invalid (.slot 1 .string) (.lit (exStr [120#8]))]),
       .isIn (.slot 0 .int64) [exInt 1, exNull] false]

example : denote exSchema exCond =
    some (.or [.not (.and [.cmp .gt (.const (some (.num 5))) (.col 0), .cmp .eq (.col 1) (.const (some (.str [120#8])))]),
      .isIn (.col 0) [some (.num 1), none]]) ∧ nullInPositive exCond = true := by
  constructor
  · simp [denote, denoteAll, exCond, comparable, term, litOk, exInt, exStr, exNull, exSchema, IntTy, Direct, NotNaN, VTy.isUint,
      numOf, sem, intShape, Fits, range, Ordered, listable, nullV]
  · rfl
/-- Rows of that table. -/
def Spec.exRow (a : EV) : Row
  | 0 => a
  | 1 => ⟨.string, 0, [121#8]⟩
  | 2 => ⟨.string, 0, [121#8]⟩
  | _ => nullV
example (x : BitVec 64) : RowOk exSchema (exRow ⟨.int64, x, []⟩) := by
  intro i
  match i with
  | 0 => right; exact ⟨rfl, by constructor <;> simp [exRow]⟩
  | 1 => right; exact ⟨rfl, by constructor <;> simp [exRow]⟩
  | 2 => right; exact ⟨rfl, by constructor <;> simp [exRow]⟩
  | 3 => left; exact ⟨rfl, rfl⟩
  | 4 => left; exact ⟨rfl, rfl⟩
  | n + 5 => left; exact ⟨rfl, rfl⟩
example : denote exSchema (.like .utf8 (.slot 2 .string) [0x25#8]) = some (.like .utf8 (.col 2) [0x25#8]) := rfl

/-! ## Where the code deviates -/

/-- Sent to a storage node, `a NOT IN (1, NULL)` is true for a = 2. -/
theorem C25_shipped_not_in_counterexample (E : Env) :
    let e := prepare E (.not (.isIn (.slot 0 .int64) [exInt 1, exNull] false))
    keep E (exRow ⟨.int64, 2#64, []⟩) [e] = false ∧ keep E (exRow ⟨.int64, 2#64, []⟩) [ship e] = true := by
  constructor <;> rfl

theorem keep_bool (E : Env) {r : Row} {e : PE} {b : Bool} (h : eval E r e = boolV b) : keep E r [e] = b := by
  simp only [keep, List.all_cons, List.all_nil, Bool.and_true, h, truth_bool]
  cases b <;> rfl

/-- A TINYINT column holding 1 is IN (257). -/
theorem C27_narrow_column_counterexample (E : Env) :
    keep E (fun _ => ⟨.int8, 1#64, []⟩) [prepare E (.isIn (.slot 3 .int8) [exInt 257] false)] = true := by
  apply keep_bool
  have : BitVec.ofInt 64 (EV.sget ⟨.int64, Expr.putLow 64 (1#64) (EV.sget ⟨.int8, 1#64, []⟩ 8), []⟩ 64) =
      BitVec.ofInt 64 (EV.sget ⟨.int64, Expr.putLow 64 (Expr.putLow 8 (257#64) (EV.sget ⟨.int64, 257#64, []⟩ 64))
        (EV.sget ⟨.int8, Expr.putLow 8 (257#64) (EV.sget ⟨.int64, 257#64, []⟩ 64), []⟩ 8), []⟩ 64) := by decide
  simp [prepare, fold, infer, eval, PE.isSlot, PE.colTy, exInt, nullFlag, EV.isNull, inTy, VTy.isInt, Lit.value, cast,
    Expr.castTo, Expr.getInt, inFn, key, VTy.width, this]

/-- No value of a BIGINT UNSIGNED column is > -1. -/
theorem C25_unsigned_counterexample (E : Env) (x : BitVec 64) :
    keep E (fun _ => ⟨.uint64, x, []⟩) [prepare E (.cmp .gt .invalid (.slot 4 .uint64) (.lit (exInt (-1))))] = false := by
  apply keep_bool
  have hx := x.isLt
  have h1 : EV.uget ⟨.uint64, Expr.putLow 64 (18446744073709551615#64) (EV.sget ⟨.int64, 18446744073709551615#64, []⟩ 64), []⟩ 64
      = 18446744073709551615 := by decide
  have h2 : EV.uget ⟨.uint64, x, []⟩ 64 ≤ 18446744073709551615 := by rw [Expr.uget_eq]; simp only; omega
  have h3 : Op.holds .gt (Ord.compare (EV.uget ⟨.uint64, x, []⟩ 64) 18446744073709551615) = false := by
    simp only [Op.holds, beq_eq_false_iff_ne, ne_eq, Expr.int_compare_gt]
    omega
  simp [prepare, fold, infer, eval, PE.isSlot, PE.colTy, exInt, EV.isNull, inferCmp, isConst, foldChild, PE.isLit, retype,
    argTy, VTy.isInt, VTy.isUint, castArg, Lit.castCol, Lit.value, cast, Expr.castTo, Expr.getInt, cmpFn, VTy.width, h1, h3]

/-- A BIGINT -1 equals a BIGINT UNSIGNED 18446744073709551615. -/
theorem C25_mixed_sign_counterexample (E : Env) (r : Row) (h0 : r 0 = ⟨.int64, BitVec.ofInt 64 (-1), []⟩)
    (h4 : r 4 = ⟨.uint64, BitVec.ofInt 64 (-1), []⟩) :
    keep E r [prepare E (.cmp .eq .invalid (.slot 0 .int64) (.slot 4 .uint64))] = true := by
  apply keep_bool
  have h1 : EV.uget ⟨.uint64, Expr.putLow 64 (18446744073709551615#64) (EV.sget ⟨.int64, 18446744073709551615#64, []⟩ 64), []⟩ 64
      = EV.uget ⟨.uint64, 18446744073709551615#64, []⟩ 64 := by decide
  simp [prepare, fold, infer, eval, PE.isSlot, PE.colTy, EV.isNull, inferCmp, isConst, foldChild,
    argTy, VTy.isInt, VTy.isUint, castArg, cast, Expr.castTo, Expr.getInt, cmpFn, h0, h4, VTy.width, h1, Op.holds]

/-- A literal 1.5 compared with an integer column is first cut to 1: with the usual conversion of 1.5, `a < 1.5` does not
keep a = 1. -/
theorem C25_fraction_counterexample (E : Env)
    (h : E.castX ⟨.double, 0x3ff8000000000000#64, []⟩ .int64 = ⟨.int64, 1#64, []⟩) :
    keep E (exRow ⟨.int64, 1#64, []⟩)
      [prepare E (.cmp .lt .invalid (.slot 0 .int64) (.lit ⟨⟨.double, 0x3ff8000000000000#64, []⟩, .double⟩))] = false := by
  apply keep_bool
  simp [prepare, fold, infer, eval, PE.isSlot, PE.colTy, EV.isNull, inferCmp, isConst, foldChild, PE.isLit, retype,
    argTy, VTy.isInt, VTy.isUint, castArg, Lit.castCol, Lit.value, cast, Expr.castTo, Expr.getInt, cmpFn, exRow, h, Op.holds]

/-- NULL LIKE '%' is true, and NULL NOT LIKE 'a' is true. -/
theorem C25_like_null_counterexample (E : Env) :
    keep E (fun _ => nullV) [prepare E (.like .utf8 (.slot 1 .string) [0x25#8])] = true ∧
    keep E (fun _ => nullV) [prepare E (.not (.like .utf8 (.slot 1 .string) [0x61#8]))] = true := by
  have h1 : Like.likeOne .utf8 [] [0x25#8] = true := by decide
  have h2 : Like.likeOne .utf8 [] [0x61#8] = false := by decide
  constructor <;> apply keep_bool
  · simp [prepare, fold, infer, eval, cast, Expr.castTo, nullV, EV.isNull, h1]
  · simp [prepare, fold, infer, eval, cast, Expr.castTo, nullV, EV.isNull, h2, truth_bool]
    simp [boolV]

end BaikalDB.Pred
