import Verif.Pred.Props
import Verif.Pred.Opt
/-!
# C45: simplifying the WHERE conjuncts never changes the rows returned
-/
namespace BaikalDB.Pred
open BaikalDB.Expr (VTy EV)
open BaikalDB.Expr.Spec
open BaikalDB.Pred.Spec

/-! ## Classified conjuncts -/

/-- The argument type of comparisons of a column with a literal. -/
def qOf (t : VTy) : VTy := if IntTy t then (if t.isUint then .uint64 else .int64) else t

theorem qOf_int {t : VTy} (h : IntTy t) : qOf t = if t.isUint then .uint64 else .int64 := by simp [qOf, h]
theorem qOf_int' {t : VTy} (h : IntTy t) : IntTy (qOf t) := by rw [qOf_int h]; exact intTy_arg _
theorem direct_not_int {t : VTy} (h : Direct t) : ¬ IntTy t := by
  simp only [Direct, List.mem_cons, List.not_mem_nil, or_false] at h
  rcases h with rfl | rfl | rfl | rfl | rfl | rfl <;> simp [IntTy]
theorem qOf_direct {t : VTy} (h : Direct t) : qOf t = t := by simp [qOf, direct_not_int h]
theorem argTy_self {t : VTy} (h : IntTy t ∨ Direct t) : argTy t t = qOf t := by
  rcases h with h | h
  · rw [argTy_int h h, Bool.or_self, qOf_int h]
  · rw [argTy_direct h, qOf_direct h]
theorem argOk_qOf {t : VTy} (h : IntTy t ∨ Direct t) : ArgTy (qOf t) := by
  rcases h with h | h
  · rw [qOf_int h]; exact argOk_bool _
  · rw [qOf_direct h]; exact .inr (.inr h)
theorem string_direct : Direct .string := by simp [Direct]

/-- A value a column of type `t` can be compared with under the type `qOf t`. -/
def ValOk (t : VTy) (v : EV) : Prop :=
  (IntTy t ∧ IntTy v.ty ∧ Fits (qOf t) (numOf v)) ∨ (Direct t ∧ v.ty = t ∧ NotNaN v)

/-- An element of an IN list on a column of type `t`: integers and strings. -/
def ItemOk (E : Env) (t : VTy) (l : Lit) : Prop :=
  (IntTy t ∧ IntTy l.ty ∧ IntTy (l.value E).ty ∧ Fits (qOf t) (numOf (l.value E))) ∨
  (t = .string ∧ l.ty = .string ∧ (l.value E).ty = .string)

/-- What type inference and the rewrites leave as conjuncts on one column. -/
inductive Good (S : Schema) (E : Env) : PE → Prop
  | cmp (op : Op) (i : Nat) (l : Lit) : (IntTy (S i).1 ∨ Direct (S i).1) → l.ty = l.v.ty → l.v.ty = qOf (S i).1 → NotNaN l.v →
      Good S E (.cmp op (qOf (S i).1) (.slot i (S i).1) (.lit l))
  | inn (i : Nat) (items : List Lit) (h : Bool) : (IntTy (S i).1 ∨ (S i).1 = .string) → items ≠ [] →
      (∀ l ∈ items, ItemOk E (S i).1 l) → Good S E (.isIn (.slot i (S i).1) items h)

/-- A conjunct on one column holds on a value. -/
def Holds (E : Env) (x : SVal) : PE → Prop
  | .cmp op _ _ (.lit l) => ∃ y, sem l.v = some y ∧ rel op x y = true
  | .isIn _ items _ => ∃ l ∈ items, sem (l.value E) = some x
  | _ => False

/-- One conjunct keeps the row. -/
def K (E : Env) (r : Row) (e : PE) : Prop := (!(eval E r e).isNull && truth E (eval E r e)) = true

theorem keep_iff (E : Env) (r : Row) (cs : List PE) : keep E r cs = true ↔ ∀ e ∈ cs, K E r e := by
  simp only [keep, List.all_eq_true, K]

theorem valOk_cast (E : Env) {t : VTy} {v : EV} (h : ValOk t v) : Arg (qOf t) (cast E v (qOf t)) (sem v) := by
  rcases h with ⟨h1, h2, h3⟩ | ⟨h1, h2, h3⟩
  · exact arg_int E (.inr ⟨h2, h3⟩) (qOf_int' h1)
  · rw [qOf_direct h1]; exact arg_direct E (.inr ⟨h2, h3⟩) h1

theorem valOk_sem {t : VTy} {v : EV} (h : ValOk t v) : v.isNull = false ∧ ∃ x, sem v = some x := by
  rcases h with ⟨h1, h2, h3⟩ | ⟨h1, h2, h3⟩
  · obtain ⟨x, hx, _, _⟩ := Expr.sem_int h2
    exact ⟨not_null_of_int h2, _, hx⟩
  · have ho : Ordered v.ty := by rw [h2]; exact ordered_of_direct h1
    exact ⟨not_null_of_ordered ho, sem_of_ordered ho⟩

theorem lit_valOk {t : VTy} {l : Lit} (ht : IntTy t ∨ Direct t) (h : l.v.ty = qOf t) (hn : NotNaN l.v) : ValOk t l.v := by
  rcases ht with ht | ht
  · refine .inl ⟨ht, by rw [h]; exact qOf_int' ht, ?_⟩
    obtain ⟨x, hx, _, hf⟩ := Expr.sem_int (v := l.v) (by rw [h]; exact qOf_int' ht)
    rw [numOf_eq hx, ← h]; exact hf
  · rw [qOf_direct ht] at h; exact .inr ⟨ht, h, hn⟩

theorem row_valOk {S : Schema} {r : Row} (hr : RowOk S r) {i : Nat} (ht : IntTy (S i).1 ∨ Direct (S i).1) :
    (r i).ty = .null ∨ ValOk (S i).1 (r i) := by
  rcases hr i with h | h
  · exact .inl h.1
  · right
    rcases ht with ht | ht
    · refine .inl ⟨ht, by rw [h.1]; exact ht, ?_⟩
      obtain ⟨x, hx, _, hf⟩ := Expr.sem_int (v := r i) (by rw [h.1]; exact ht)
      rw [numOf_eq hx, qOf_int ht]
      exact fits_arg ht (by rw [← h.1]; exact hf)
    · exact .inr ⟨ht, h⟩

/-- Comparing a value or NULL with a literal. -/
theorem cmp_core (E : Env) (op : Op) {t : VTy} (ht : IntTy t ∨ Direct t) {v : EV} {l : Lit} (hv : v.ty = .null ∨ ValOk t v)
    (hl : l.v.ty = qOf t) (hn : NotNaN l.v) :
    (!(cmpFn op (qOf t) (cast E v (qOf t)) (cast E l.v (qOf t))).isNull &&
      truth E (cmpFn op (qOf t) (cast E v (qOf t)) (cast E l.v (qOf t)))) = true ↔
    ∃ x, sem v = some x ∧ ∃ y, sem l.v = some y ∧ rel op x y = true := by
  have ha : Arg (qOf t) (cast E v (qOf t)) (sem v) := by
    rcases hv with h | h
    · rw [cast_null E h, sem_null h]; exact .inl ⟨h, rfl⟩
    · exact valOk_cast E h
  have hb := valOk_cast E (lit_valOk ht hl hn)
  rw [rep_iff_true (cmpFn_rep E op (argOk_qOf ht) ha hb)]
  cases sem v <;> cases sem l.v <;> simp [cmp3]

/-- The type of the lookup. -/
def mapOf (t : VTy) : VTy := if IntTy t then .int64 else .string

theorem item_key (E : Env) {t : VTy} {v : EV} {l : Lit} (hv : ValOk t v) (hl : ItemOk E t l) :
    key E (mapOf t) v = key E (mapOf t) (l.value E) ↔ sem v = sem (l.value E) := by
  rcases hl with ⟨h1, h2, h3, h4⟩ | ⟨rfl, h2, h3⟩
  · rcases hv with ⟨_, h5, h6⟩ | ⟨h5, _⟩
    · simp only [mapOf, h1, if_true]
      exact int_key_iff E (qOf_int' h1) h5 h3 h6 h4
    · exact absurd h1 (direct_not_int h5)
  · rcases hv with ⟨h5, _⟩ | ⟨h5, h6, _⟩
    · exact absurd h5 (by simp [IntTy])
    · have : mapOf .string = .string := by simp [mapOf, IntTy]
      rw [this]
      exact direct_key_iff E string_direct h6 h3

theorem item_valOk (E : Env) {t : VTy} {l : Lit} (hl : ItemOk E t l) : ValOk t (l.value E) := by
  rcases hl with ⟨h1, h2, h3, h4⟩ | ⟨rfl, h2, h3⟩
  · exact .inl ⟨h1, h3, h4⟩
  · exact .inr ⟨string_direct, h3, by constructor <;> simp [h3]⟩

/-- Looking up a value or NULL in a list. -/
theorem in_core (E : Env) {t : VTy} {v : EV} {items : List Lit} (hn : Bool) (hv : v.ty = .null ∨ ValOk t v)
    (hi : ∀ l ∈ items, ItemOk E t l) :
    (!(inFn E (mapOf t) (items.map (Lit.value E)) hn v).isNull &&
      truth E (inFn E (mapOf t) (items.map (Lit.value E)) hn v)) = true ↔
    ∃ x, sem v = some x ∧ ∃ l ∈ items, sem (l.value E) = some x := by
  rcases hv with h | h
  · rw [sem_null h]
    have : v.isNull = true := by simp [EV.isNull, h]
    simp only [inFn, this, if_true]
    exact ⟨fun h => absurd h (by simp [nullV, EV.isNull]), by rintro ⟨_, h, _⟩; cases h⟩
  · obtain ⟨h0, x, hx⟩ := valOk_sem h
    have hc : (((items.map (Lit.value E)).filter fun v => !v.isNull).map (key E (mapOf t))).contains (key E (mapOf t) v) = true ↔
        ∃ l ∈ items, sem (l.value E) = some x := by
      rw [List.contains_eq_mem, decide_eq_true_eq, List.mem_map]
      constructor
      · rintro ⟨w, hw, e⟩
        rw [List.mem_filter, List.mem_map] at hw
        obtain ⟨⟨l, hl, rfl⟩, _⟩ := hw
        exact ⟨l, hl, by rw [← (item_key E h (hi l hl)).mp e.symm, hx]⟩
      · rintro ⟨l, hl, e⟩
        refine ⟨l.value E, ?_, ((item_key E h (hi l hl)).mpr (by rw [e, hx])).symm⟩
        rw [List.mem_filter]
        exact ⟨List.mem_map.mpr ⟨l, hl, rfl⟩, by rw [(valOk_sem (item_valOk E (hi l hl))).1]; rfl⟩
    simp only [inFn, h0, Bool.false_eq_true, if_false]
    by_cases hcc : (((items.map (Lit.value E)).filter fun v => !v.isNull).map (key E (mapOf t))).contains (key E (mapOf t) v) = true
    · rw [if_pos hcc]
      simp only [truth_bool]
      exact ⟨fun _ => ⟨x, hx, hc.mp hcc⟩, fun _ => rfl⟩
    · rw [if_neg hcc]
      refine ⟨fun h' => absurd h' ?_, ?_⟩
      · cases hn <;> simp [nullV, boolV, EV.isNull, truth, Expr.getInt, EV.uget]
      · rintro ⟨y, hy, h'⟩
        rw [hx] at hy
        cases hy
        exact absurd (hc.mpr h') hcc

theorem inTy_mapOf {t u w : VTy} (h : (IntTy t ∧ IntTy u ∧ IntTy w) ∨ (t = .string ∧ u = .string ∧ w = .string)) :
    inTy u w = mapOf t := by
  rcases h with ⟨h1, h2, h3⟩ | ⟨rfl, rfl, rfl⟩
  · rw [inTy_int h2 h3]; simp [mapOf, h1]
  · simp [mapOf, IntTy]; rfl

theorem headTy (E : Env) {t : VTy} {items : List Lit} (hne : items ≠ []) (hi : ∀ l ∈ items, ItemOk E t l) :
    (IntTy t ∧ IntTy ((items.map Lit.ty).headD .null)) ∨ (t = .string ∧ (items.map Lit.ty).headD .null = .string) := by
  cases items with
  | nil => exact absurd rfl hne
  | cons l ls =>
    rcases hi l (by simp) with ⟨h1, h2, _⟩ | ⟨h1, h2, _⟩
    · exact .inl ⟨h1, h2⟩
    · exact .inr ⟨h1, h2⟩

theorem slot_of_good {S : Schema} {E : Env} {e : PE} (h : Good S E e) {i : Nat} {k : Kind} (hc : classify e = some (i, k)) :
    (∃ op l, e = .cmp op (qOf (S i).1) (.slot i (S i).1) (.lit l) ∧ (IntTy (S i).1 ∨ Direct (S i).1) ∧ l.ty = l.v.ty ∧
      l.v.ty = qOf (S i).1 ∧ NotNaN l.v) ∨
    (∃ items h, e = .isIn (.slot i (S i).1) items h ∧ k = .inn ∧ (IntTy (S i).1 ∨ (S i).1 = .string) ∧ items ≠ [] ∧
      ∀ l ∈ items, ItemOk E (S i).1 l) := by
  cases h with
  | cmp op j l h1 h2 h3 h4 =>
    have : j = i := by cases op <;> simp [classify] at hc <;> exact hc.2.1
    subst this
    exact .inl ⟨op, l, rfl, h1, h2, h3, h4⟩
  | inn j items h h1 h2 h3 =>
    simp only [classify, Option.some.injEq, Prod.mk.injEq] at hc
    obtain ⟨rfl, rfl⟩ := hc
    exact .inr ⟨items, h, rfl, rfl, h1, h2, h3⟩

/-- A classified conjunct keeps a row exactly when it holds on the value of its column. -/
theorem K_good (E : Env) {S : Schema} {r : Row} (hr : RowOk S r) {e : PE} (h : Good S E e) {i : Nat} {k : Kind}
    (hc : classify e = some (i, k)) : K E r e ↔ ∃ x, sem (r i) = some x ∧ Holds E x e := by
  rcases slot_of_good h hc with ⟨op, l, rfl, h1, h2, h3, h4⟩ | ⟨items, hn, rfl, _, h1, h2, h3⟩
  · simp only [K, eval, slot_eval E hr, Lit.value, cast_same' E h2.symm, Holds]
    exact cmp_core E op h1 (row_valOk hr h1) h3 h4
  · have ht : IntTy (S i).1 ∨ Direct (S i).1 := by
      rcases h1 with h | h
      · exact .inl h
      · rw [h]; exact .inr string_direct
    have hm : inTy (S i).1 ((items.map Lit.ty).headD .null) = mapOf (S i).1 := by
      apply inTy_mapOf
      rcases headTy E h2 h3 with ⟨a, b⟩ | ⟨a, b⟩
      · exact .inl ⟨a, a, b⟩
      · exact .inr ⟨a, a, b⟩
    simp only [K, eval, slot_eval E hr, PE.colTy, hm, Holds]
    exact in_core E hn (row_valOk hr ht) h3

/-- With the column replaced by a value, it is true exactly when it holds on that value. -/
theorem subst_good (E : Env) {S : Schema} {e : PE} (h : Good S E e) {i : Nat} {k : Kind} (hc : classify e = some (i, k))
    {v : EV} (hv : ValOk (S i).1 v) {x : SVal} (hx : sem v = some x) (r : Row) : K E r (subst v e) ↔ Holds E x e := by
  rcases slot_of_good h hc with ⟨op, l, rfl, h1, h2, h3, h4⟩ | ⟨items, hn, rfl, _, h1, h2, h3⟩
  · simp only [K, subst, eval, Lit.value, cast_same, cast_same' E h2.symm, Holds]
    rw [cmp_core E op h1 (.inr hv) h3 h4]
    constructor
    · rintro ⟨x', hx', h⟩; rw [hx] at hx'; cases hx'; exact h
    · intro h; exact ⟨x, hx, h⟩
  · have hm : inTy v.ty ((items.map Lit.ty).headD .null) = mapOf (S i).1 := by
      apply inTy_mapOf
      rcases headTy E h2 h3 with ⟨a, b⟩ | ⟨a, b⟩
      · rcases hv with ⟨_, h5, _⟩ | ⟨h5, _⟩
        · exact .inl ⟨a, h5, b⟩
        · exact absurd a (direct_not_int h5)
      · rcases hv with ⟨h5, _⟩ | ⟨_, h5, _⟩
        · rw [a] at h5; exact absurd h5 (by simp [IntTy])
        · exact .inr ⟨a, by rw [h5, a], b⟩
    simp only [K, subst, eval, PE.colTy, hm, Holds, Lit.value, cast_same]
    have := in_core E (hn || v.isNull) (.inr hv) h3
    simp only [Lit.value] at this
    rw [this]
    constructor
    · rintro ⟨x', hx', h⟩; rw [hx] at hx'; cases hx'; exact h
    · intro h; exact ⟨x, hx, h⟩

theorem isConst_subst {S : Schema} {E : Env} {e : PE} (h : Good S E e) (v : EV) : isConst (subst v e) = true := by
  cases h <;> rfl
theorem classify_subst {S : Schema} {E : Env} {e : PE} (h : Good S E e) (v : EV) : classify (subst v e) = none := by
  cases h with
  | cmp op => cases op <;> rfl
  | inn => rfl

/-! ## Each step -/

/-- Every classified conjunct is well formed. -/
def Inv (S : Schema) (E : Env) (cs : List PE) : Prop := ∀ e ∈ cs, ∀ i k, classify e = some (i, k) → Good S E e

theorem hasKind_iff {i : Nat} {k : Kind} {e : PE} : hasKind i k e = true ↔ classify e = some (i, k) := by simp [hasKind]
theorem onSlot_iff {i : Nat} {e : PE} : onSlot i e = true ↔ ∃ k, classify e = some (i, k) := by
  simp only [onSlot, Bool.or_eq_true, hasKind_iff]
  constructor
  · rintro (((h | h) | h) | h) <;> exact ⟨_, h⟩
  · rintro ⟨k, h⟩
    cases k <;> simp [h]

/-- With an equality true on the row, replacing the column changes nothing. -/
theorem cutEq_same (E : Env) {S : Schema} {r : Row} (hr : RowOk S r) {i : Nat} {v : EV} {x : SVal} (hv : ValOk (S i).1 v)
    (hx : sem v = some x) (hrx : sem (r i) = some x) (seen : Bool) (cs : List PE) (hi : Inv S E cs) :
    (∀ e ∈ cutEq i v seen cs, K E r e) ↔ ∀ e ∈ cs, K E r e := by
  induction cs generalizing seen with
  | nil => simp [cutEq]
  | cons e cs ih =>
    have hi' : Inv S E cs := fun e' h' => hi e' (List.mem_cons_of_mem _ h')
    have one : ∀ k, classify e = some (i, k) → (K E r (subst v e) ↔ K E r e) := by
      intro k hk
      have hg := hi e (by simp) i k hk
      rw [subst_good E hg hk hv hx r, K_good E hr hg hk]
      constructor
      · intro h; exact ⟨x, hrx, h⟩
      · rintro ⟨x', hx', h⟩; rw [hrx] at hx'; cases hx'; exact h
    simp only [cutEq]
    split
    · rename_i h
      rw [hasKind_iff] at h
      rw [List.forall_mem_cons, List.forall_mem_cons, ih true hi']
      cases seen
      · simp
      · simp only [if_true, one _ h]
    · split
      · rename_i h
        obtain ⟨k, hk⟩ := onSlot_iff.mp h
        rw [List.forall_mem_cons, List.forall_mem_cons, ih seen hi', one k hk]
      · rw [List.forall_mem_cons, List.forall_mem_cons, ih seen hi']

theorem cutEq_inv (E : Env) {S : Schema} {i : Nat} {v : EV} (seen : Bool) (cs : List PE) (hi : Inv S E cs) :
    Inv S E (cutEq i v seen cs) := by
  induction cs generalizing seen with
  | nil => simp [cutEq, Inv]
  | cons e cs ih =>
    have hi' : Inv S E cs := fun e' h' => hi e' (List.mem_cons_of_mem _ h')
    have one : ∀ k, classify e = some (i, k) → ∀ j k', classify (subst v e) = some (j, k') → Good S E (subst v e) := by
      intro k hk j k' h
      rw [classify_subst (hi e (by simp) i k hk)] at h
      cases h
    intro e' he' j k' hk'
    simp only [cutEq] at he'
    split at he'
    · rename_i h
      rw [hasKind_iff] at h
      rcases List.mem_cons.mp he' with rfl | he'
      · cases seen
        · exact hi e (by simp) j k' hk'
        · exact one _ h j k' hk'
      · exact ih true hi' e' he' j k' hk'
    · split at he'
      · rename_i h
        obtain ⟨k, hk⟩ := onSlot_iff.mp h
        rcases List.mem_cons.mp he' with rfl | he'
        · exact one k hk j k' hk'
        · exact ih seen hi' e' he' j k' hk'
      · rcases List.mem_cons.mp he' with rfl | he'
        · exact hi e' (by simp) j k' hk'
        · exact ih seen hi' e' he' j k' hk'

theorem cutEq_first {i : Nat} {v : EV} {cs : List PE} {e : PE} {es : List PE} (h : cs.filter (hasKind i .eq) = e :: es) :
    e ∈ cutEq i v false cs := by
  induction cs with
  | nil => simp at h
  | cons c cs ih =>
    simp only [cutEq]
    by_cases hc : hasKind i .eq c = true
    · rw [List.filter_cons_of_pos hc] at h
      simp only [List.cons.injEq] at h
      rw [if_pos hc, h.1]
      simp
    · rw [List.filter_cons_of_neg hc] at h
      rw [if_neg hc]
      split
      · exact List.mem_cons_of_mem _ (ih h)
      · exact List.mem_cons_of_mem _ (ih h)

/-- Two list elements have the same text exactly when they are the same value. -/
theorem text_iff (E : Env) {t : VTy} {l k : Lit} (hl : ItemOk E t l) (hk : ItemOk E t k) :
    itemText E l = itemText E k ↔ sem (l.value E) = sem (k.value E) := by
  have toS : ∀ v : EV, IntTy v.ty → ∀ x, sem v = some (.num x) → Expr.getString v = some (Expr.toStr x) := by
    intro v hv x hx
    obtain ⟨t, u, s⟩ := v
    simp only [IntTy, List.mem_cons, List.not_mem_nil, or_false] at hv
    rcases hv with rfl | rfl | rfl | rfl | rfl | rfl | rfl | rfl <;>
      simp only [sem, intShape, Option.some.injEq, SVal.num.injEq] at hx <;> subst hx <;>
      simp [Expr.getString, Expr.sget_eq, Expr.uget_eq]
  rcases hl with ⟨h1, _, h3, h4⟩ | ⟨rfl, _, h3⟩
  · rcases hk with ⟨_, _, k3, k4⟩ | ⟨rfl, _⟩
    · obtain ⟨x, hx, _, _⟩ := Expr.sem_int h3
      obtain ⟨y, hy, _, _⟩ := Expr.sem_int k3
      simp only [itemText, toS _ h3 x hx, toS _ k3 y hy, Option.getD_some, hx, hy, Option.some.injEq, SVal.num.injEq]
      refine ⟨fun h => ?_, fun h => by rw [h]⟩
      rw [numOf_eq hx] at h4
      rw [numOf_eq hy] at k4
      have hb : x.natAbs < 2 ^ 64 ∧ y.natAbs < 2 ^ 64 ∧ (x - y < 2 ^ 64 ∧ y - x < 2 ^ 64) := by
        rw [qOf_int h1] at h4 k4
        cases hu : (t.isUint) <;> rw [hu] at h4 k4 <;>
          simp only [Bool.false_eq_true, if_false, if_true, Fits, range] at h4 k4 <;> omega
      have := congrArg Expr.strtoull h
      rw [Expr.strtoull_toStr hb.1, Expr.strtoull_toStr hb.2.1, ofInt_eq_iff] at this
      omega
    · exact absurd h1 (by simp [IntTy])
  · rcases hk with ⟨k1, _⟩ | ⟨_, _, k3⟩
    · exact absurd k1 (by simp [IntTy])
    · simp [itemText, Expr.getString, h3, k3, sem, intShape]

theorem last_of_mem {p : Lit → Bool} {items : List Lit} {l : Lit} (h : l ∈ items) (hp : p l = true) :
    ∃ k, (items.filter p).getLast? = some k ∧ k ∈ items ∧ p k = true := by
  have hne : items.filter p ≠ [] := fun e => by
    have : l ∈ items.filter p := List.mem_filter.mpr ⟨h, hp⟩
    rw [e] at this; simp at this
  refine ⟨(items.filter p).getLast hne, List.getLast?_eq_some_getLast hne, ?_⟩
  have := List.mem_filter.mp (List.getLast_mem hne)
  exact this

theorem K_const {E : Env} {e : PE} (h : isConst e = true) (r : Row) : K E r e ↔ constTrue E e = true := by
  simp only [K, constTrue, eval_const E r noRow e h]

/-- An element's text survives exactly when the other lists and the bounds hold on its value. -/
theorem survives_iff (E : Env) {S : Schema} {i : Nat} {items : List Lit} (hi : ∀ l ∈ items, ItemOk E (S i).1 l)
    {others bounds : List PE} (ho : ∀ o ∈ others, Good S E o ∧ classify o = some (i, .inn))
    (hb : ∀ b ∈ bounds, Good S E b ∧ ∃ k, classify b = some (i, k)) {l : Lit} (hl : l ∈ items) {x : SVal}
    (hx : sem (l.value E) = some x) :
    survives E items others bounds (itemText E l) = true ↔ (∀ o ∈ others, Holds E x o) ∧ ∀ b ∈ bounds, Holds E x b := by
  obtain ⟨k, hk, hkm, hkt⟩ := last_of_mem (p := fun l' => itemText E l' == itemText E l) hl (by simp)
  simp only [survives, hk, Bool.and_eq_true, List.all_eq_true, List.any_eq_true, beq_iff_eq]
  have hkx : sem (k.value E) = some x := by
    rw [← hx]
    exact (text_iff E (hi k hkm) (hi l hl)).mp (by simpa using hkt)
  refine and_congr ?_ ?_
  · refine forall_congr' fun o => forall_congr' fun ho' => ?_
    obtain ⟨hg, hc⟩ := ho o ho'
    rcases slot_of_good hg hc with ⟨op, l', rfl, _⟩ | ⟨items', hn, rfl, _, h1, h2, h3⟩
    · cases op <;> simp [classify] at hc
    · simp only [inItems, Holds]
      constructor
      · rintro ⟨l', hl', e⟩
        exact ⟨l', hl', by rw [← hx]; exact (text_iff E (h3 l' hl') (hi l hl)).mp e⟩
      · rintro ⟨l', hl', e⟩
        exact ⟨l', hl', (text_iff E (h3 l' hl') (hi l hl)).mpr (by rw [e, hx])⟩
  · refine forall_congr' fun b => forall_congr' fun hb' => ?_
    obtain ⟨hg, k', hc⟩ := hb b hb'
    rw [← K_const (isConst_subst hg _) noRow]
    exact subst_good E hg hc (item_valOk E (hi k hkm)) hkx noRow

theorem forall_split {p : PE → Bool} {Q : PE → Prop} {cs : List PE} :
    (∀ e ∈ cs, Q e) ↔ (∀ e ∈ cs.filter p, Q e) ∧ ∀ e ∈ cs.filter (fun e => !p e), Q e := by
  simp only [List.mem_filter]
  constructor
  · intro h; exact ⟨fun e he => h e he.1, fun e he => h e he.1⟩
  · rintro ⟨h1, h2⟩ e he
    cases hp : p e
    · exact h2 e ⟨he, by simp [hp]⟩
    · exact h1 e ⟨he, hp⟩

theorem inv_filter {S : Schema} {E : Env} {cs : List PE} (hi : Inv S E cs) (p : PE → Bool) : Inv S E (cs.filter p) :=
  fun e he => hi e (List.mem_filter.mp he).1
theorem inv_cons {S : Schema} {E : Env} {e : PE} {cs : List PE} (h : Good S E e) (hi : Inv S E cs) : Inv S E (e :: cs) := by
  intro e' he' i k hk
  rcases List.mem_cons.mp he' with rfl | he'
  · exact h
  · exact hi e' he' i k hk

/-- The IN branch. -/
theorem cutIn_ok (E : Env) {S : Schema} {i : Nat} {cs : List PE} (hi : Inv S E cs) (hnoeq : cs.filter (hasKind i .eq) = [])
    {f : PE} {os : List PE} (hf : cs.filter (hasKind i .inn) = f :: os) :
    match cutIn E i f os cs with
    | some cs' => (∀ r, RowOk S r → ((∀ e ∈ cs', K E r e) ↔ ∀ e ∈ cs, K E r e)) ∧ Inv S E cs'
    | none => ∀ r, RowOk S r → ¬ ∀ e ∈ cs, K E r e := by
  have hmem : ∀ e ∈ f :: os, e ∈ cs ∧ classify e = some (i, .inn) := by
    intro e h
    rw [← hf] at h
    obtain ⟨h1, h2⟩ := List.mem_filter.mp h
    exact ⟨h1, hasKind_iff.mp h2⟩
  have hfg := hi f (hmem f (by simp)).1 i .inn (hmem f (by simp)).2
  rcases slot_of_good hfg (hmem f (by simp)).2 with ⟨op, l', rfl, _⟩ | ⟨items, hn, rfl, _, h1, h2, h3⟩
  · have := (hmem _ (List.mem_cons_self ..)).2; cases op <;> simp [classify] at this
  have ho : ∀ o ∈ os, Good S E o ∧ classify o = some (i, .inn) := fun o h =>
    have hm := hmem o (List.mem_cons_of_mem _ h)
    ⟨hi o hm.1 i .inn hm.2, hm.2⟩
  let bounds := cs.filter fun e => hasKind i .lt e || hasKind i .gt e
  have hb : ∀ b ∈ bounds, Good S E b ∧ ∃ k, classify b = some (i, k) := by
    intro b hb
    obtain ⟨h1, h2⟩ := List.mem_filter.mp hb
    rw [Bool.or_eq_true, hasKind_iff, hasKind_iff] at h2
    rcases h2 with h2 | h2
    · exact ⟨hi b h1 i _ h2, _, h2⟩
    · exact ⟨hi b h1 i _ h2, _, h2⟩
  -- the conjuncts on the column, together
  have hall : ∀ r, RowOk S r → ((∀ e ∈ cs, K E r e) ↔
      (∃ x, sem (r i) = some x ∧ (∃ l ∈ items, sem (l.value E) = some x ∧
        survives E items os bounds (itemText E l) = true)) ∧ ∀ e ∈ cs.filter (fun e => !onSlot i e), K E r e) := by
    intro r hr
    rw [forall_split (p := onSlot i)]
    refine and_congr_left fun _ => ?_
    constructor
    · intro h
      have onS : ∀ e ∈ cs, ∀ k, classify e = some (i, k) → K E r e := fun e he k hk =>
        h e (List.mem_filter.mpr ⟨he, onSlot_iff.mpr ⟨k, hk⟩⟩)
      have hm := hmem _ (List.mem_cons_self (a := PE.isIn (.slot i (S i).1) items hn) (l := os))
      obtain ⟨x, hx, l, hl, hlx⟩ := (K_good E hr hfg hm.2).mp (onS _ hm.1 _ hm.2)
      refine ⟨x, hx, l, hl, hlx, (survives_iff E h3 ho hb hl hlx).mpr ⟨fun o ho' => ?_, fun b hb' => ?_⟩⟩
      · have hm := hmem o (List.mem_cons_of_mem _ ho')
        obtain ⟨x', hx', h'⟩ := (K_good E hr (ho o ho').1 hm.2).mp (onS o hm.1 _ hm.2)
        rw [hx] at hx'; cases hx'; exact h'
      · obtain ⟨hg, k, hk⟩ := hb b hb'
        obtain ⟨x', hx', h'⟩ := (K_good E hr hg hk).mp (onS b (List.mem_filter.mp hb').1 _ hk)
        rw [hx] at hx'; cases hx'; exact h'
    · rintro ⟨x, hx, l, hl, hlx, hs⟩ e he
      obtain ⟨he1, he2⟩ := List.mem_filter.mp he
      obtain ⟨k, hk⟩ := onSlot_iff.mp he2
      obtain ⟨s1, s2⟩ := (survives_iff E h3 ho hb hl hlx).mp hs
      refine (K_good E hr (hi e he1 i k hk) hk).mpr ⟨x, hx, ?_⟩
      cases k with
      | eq =>
        have : e ∈ cs.filter (hasKind i .eq) := List.mem_filter.mpr ⟨he1, hasKind_iff.mpr hk⟩
        rw [hnoeq] at this; simp at this
      | inn =>
        have : e ∈ cs.filter (hasKind i .inn) := List.mem_filter.mpr ⟨he1, hasKind_iff.mpr hk⟩
        rw [hf] at this
        rcases List.mem_cons.mp this with rfl | h
        · exact ⟨l, hl, hlx⟩
        · exact s1 e h
      | lt => exact s2 e (List.mem_filter.mpr ⟨he1, by rw [hasKind_iff.mpr hk]; rfl⟩)
      | gt => exact s2 e (List.mem_filter.mpr ⟨he1, by rw [hasKind_iff.mpr hk, Bool.or_true]⟩)
  by_cases hany : (items.any fun l => survives E items os bounds (itemText E l)) = true
  · have e1 : cutIn E i (.isIn (.slot i (S i).1) items hn) os cs =
        some (.isIn (.slot i (S i).1) (items.filter fun l => survives E items os bounds (itemText E l)) hn ::
          cs.filter fun e => !onSlot i e) := by
      simp only [cutIn, inItems, keepItems]
      exact if_pos hany
    rw [e1]
    have hne : (items.filter fun l => survives E items os bounds (itemText E l)) ≠ [] := by
      obtain ⟨l, hl, hs⟩ := List.any_eq_true.mp hany
      intro e
      have : l ∈ items.filter fun l => survives E items os bounds (itemText E l) := List.mem_filter.mpr ⟨hl, hs⟩
      rw [e] at this; simp at this
    have hg : Good S E (.isIn (.slot i (S i).1) (items.filter fun l => survives E items os bounds (itemText E l)) hn) :=
      .inn i _ hn h1 hne fun l hl => h3 l (List.mem_filter.mp hl).1
    refine ⟨fun r hr => ?_, inv_cons hg (inv_filter hi _)⟩
    rw [List.forall_mem_cons, hall r hr]
    refine and_congr_left fun _ => ?_
    rw [K_good E hr hg (i := i) (k := .inn) rfl]
    simp only [Holds]
    refine exists_congr fun x => and_congr_right fun _ => ?_
    constructor
    · rintro ⟨l, hl, hlx⟩
      obtain ⟨a, b⟩ := List.mem_filter.mp hl
      exact ⟨l, a, hlx, b⟩
    · rintro ⟨l, hl, hlx, hs⟩
      exact ⟨l, List.mem_filter.mpr ⟨hl, hs⟩, hlx⟩
  · have e1 : cutIn E i (.isIn (.slot i (S i).1) items hn) os cs = none := by
      simp only [cutIn, inItems, keepItems]
      exact if_neg hany
    rw [e1]
    intro r hr h
    obtain ⟨⟨x, hx, l, hl, hlx, hs⟩, _⟩ := (hall r hr).mp h
    exact hany (List.any_eq_true.mpr ⟨l, hl, hs⟩)

/-! ## Bounds -/

theorem cmp_lt_of_lt_of_le {x y z : SVal} (h1 : x.cmp y = .lt) (h2 : y.cmp z ≠ .gt) : x.cmp z = .lt := by
  have h3 := Expr.SVal.cmp_trans (x := x) (y := y) (z := z) (by rw [h1]; simp) h2
  cases h : x.cmp z with
  | lt => rfl
  | gt => exact absurd h h3
  | eq =>
    have := Expr.SVal.cmp_eq.mp h
    subst this
    have := Expr.SVal.cmp_swap x y
    rw [h1] at this
    exact absurd this.symm h2
theorem cmp_lt_of_le_of_lt {x y z : SVal} (h1 : x.cmp y ≠ .gt) (h2 : y.cmp z = .lt) : x.cmp z = .lt := by
  have h3 := Expr.SVal.cmp_trans (x := x) (y := y) (z := z) h1 (by rw [h2]; simp)
  cases h : x.cmp z with
  | lt => rfl
  | gt => exact absurd h h3
  | eq =>
    have := Expr.SVal.cmp_eq.mp h
    subst this
    have := Expr.SVal.cmp_swap y x
    rw [h2] at this
    exact absurd this.symm h1

theorem cmp_gt_iff {x y : SVal} : x.cmp y = .gt ↔ y.cmp x = .lt := by
  have := Expr.SVal.cmp_swap x y
  cases h : x.cmp y <;> rw [h] at this <;> simp [← this]

/-- The bound `op c` of a classified comparison. -/
structure Bound (S : Schema) (E : Env) (i : Nat) (e : PE) (op : Op) (y : SVal) : Prop where
  shape : ∃ l, e = .cmp op (qOf (S i).1) (.slot i (S i).1) (.lit l) ∧ sem l.v = some y ∧ l.ty = l.v.ty ∧
    l.v.ty = qOf (S i).1 ∧ NotNaN l.v ∧ (IntTy (S i).1 ∨ Direct (S i).1)

theorem bound_holds {S : Schema} {E : Env} {i : Nat} {e : PE} {op : Op} {y : SVal} (h : Bound S E i e op y) (x : SVal) :
    Holds E x e ↔ rel op x y = true := by
  obtain ⟨l, rfl, h1, _⟩ := h.shape
  simp only [Holds, h1, Option.some.injEq, exists_eq_left']

theorem bound_op {S : Schema} {E : Env} {i : Nat} {e : PE} {op : Op} {y : SVal} (h : Bound S E i e op y) : opOf e = op := by
  obtain ⟨l, rfl, _⟩ := h.shape; rfl

theorem bound_good {S : Schema} {E : Env} {i : Nat} {e : PE} {op : Op} {y : SVal} (h : Bound S E i e op y) : Good S E e := by
  obtain ⟨l, rfl, h1, h2, h3, h4, h5⟩ := h.shape
  exact .cmp op i l h5 h2 h3 h4

theorem sgn_lt {x : Int} : sgn x = .lt ↔ x < 0 := by simp only [sgn]; exact Expr.int_compare_lt x 0
theorem sgn_eq {x : Int} : sgn x = .eq ↔ x = 0 := by simp only [sgn]; exact Expr.int_compare_eq x 0
theorem sgn_gt {x : Int} : sgn x = .gt ↔ 0 < x := by simp only [sgn]; exact Expr.int_compare_gt x 0

/-- Comparing two literals compares the values. -/
theorem bound_cmp {S : Schema} {E : Env} {i : Nat} {a b : PE} {oa ob : Op} {x y : SVal} (ha : Bound S E i a oa x)
    (hb : Bound S E i b ob y) : sgn (cmpDiff (rhsVal E a) (rhsVal E b)) = x.cmp y := by
  obtain ⟨l, rfl, h1, h2, h3, h4, h5⟩ := ha.shape
  obtain ⟨k, rfl, k1, k2, k3, k4, k5⟩ := hb.shape
  simp only [rhsVal, eval, Lit.value, cast_same' E h2.symm, cast_same' E k2.symm]
  have ho : Ordered l.v.ty := by
    rw [h3]
    rcases h5 with h | h
    · exact ordered_of_int (qOf_int' h)
    · rw [qOf_direct h]; exact ordered_of_direct h
  obtain ⟨x', y', e1, e2, e3⟩ := Expr.C28_compare_is_value_order (a := l.v) (b := k.v) (by rw [h3, k3]) ho h4 k4
  rw [h1] at e1; cases e1
  rw [k1] at e2; cases e2
  simp only [cmpDiff, Expr.compareDiff, h3, k3, if_true, Option.getD_some]
  exact e3

theorem bound_of {S : Schema} {E : Env} {i : Nat} {e : PE} {k : Kind} (h : Good S E e) (hc : classify e = some (i, k))
    (hk : k = .lt ∨ k = .gt) :
    ∃ op y, Bound S E i e op y ∧ (k = .lt → op = .lt ∨ op = .le) ∧ (k = .gt → op = .gt ∨ op = .ge) := by
  rcases slot_of_good h hc with ⟨op, l, rfl, h1, h2, h3, h4⟩ | ⟨_, _, _, rfl, _⟩
  · obtain ⟨_, y, hy⟩ := valOk_sem (lit_valOk h1 h3 h4)
    refine ⟨op, y, ⟨l, rfl, hy, h2, h3, h4, h1⟩, ?_, ?_⟩
    · rintro rfl; cases op <;> simp [classify] at hc <;> simp
    · rintro rfl; cases op <;> simp [classify] at hc <;> simp
  · simp at hk

/-- Upper bounds: the one `lt_le_less` prefers implies the other. -/
theorem lt_imp {S : Schema} {E : Env} {i : Nat} {a b : PE} {oa ob : Op} {x y : SVal} (ha : Bound S E i a oa x)
    (hb : Bound S E i b ob y) (la : oa = .lt ∨ oa = .le) (lb : ob = .lt ∨ ob = .le) (z : SVal) :
    (ltLess E a b = true → Holds E z a → Holds E z b) ∧ (ltLess E a b = false → Holds E z b → Holds E z a) := by
  have hs := bound_cmp ha hb
  rw [bound_holds ha, bound_holds hb]
  have hl : ltLess E a b = true ↔ x.cmp y = .lt ∨ (x = y ∧ oa = .lt) := by
    simp only [ltLess, Bool.or_eq_true, decide_eq_true_eq, Bool.and_eq_true, beq_iff_eq, bound_op ha]
    rw [← hs, sgn_lt, ← Expr.SVal.cmp_eq, ← hs, sgn_eq]
  have hle : ∀ {u v : SVal} {o : Op}, (o = .lt ∨ o = .le) → rel o u v = true → u.cmp v ≠ .gt := by
    rintro u v o (rfl | rfl) h
    · simp only [rel, decide_eq_true_eq] at h; rw [h]; simp
    · simp only [rel, decide_eq_true_eq] at h
      rcases h with h | h
      · rw [h]; simp
      · rw [Expr.SVal.cmp_eq.mpr h]; simp
  have hlt : ∀ {u v : SVal} {o : Op}, (o = .lt ∨ o = .le) → u.cmp v = .lt → rel o u v = true := by
    rintro u v o (rfl | rfl) h <;> simp [rel, h]
  constructor
  · rw [hl]
    rintro (h | ⟨rfl, rfl⟩) hz
    · exact hlt lb (cmp_lt_of_le_of_lt (hle la hz) h)
    · simp only [rel, decide_eq_true_eq] at hz
      exact hlt lb hz
  · intro h hz
    have h' : ¬ (x.cmp y = .lt ∨ (x = y ∧ oa = .lt)) := fun c => by rw [hl.mpr c] at h; cases h
    by_cases hxy : x = y
    · subst hxy
      have : oa = .le := by
        rcases la with rfl | rfl
        · exact absurd (.inr ⟨rfl, rfl⟩) h'
        · rfl
      subst this
      rcases lb with rfl | rfl
      · simp only [rel, decide_eq_true_eq] at hz ⊢; exact .inl hz
      · exact hz
    · have : y.cmp x = .lt := by
        rw [← cmp_gt_iff]
        cases hc : x.cmp y with
        | lt => exact absurd (.inl hc) h'
        | eq => exact absurd (Expr.SVal.cmp_eq.mp hc) hxy
        | gt => rfl
      exact hlt la (cmp_lt_of_le_of_lt (hle lb hz) this)

/-- Lower bounds, likewise. -/
theorem gt_imp {S : Schema} {E : Env} {i : Nat} {a b : PE} {oa ob : Op} {x y : SVal} (ha : Bound S E i a oa x)
    (hb : Bound S E i b ob y) (la : oa = .gt ∨ oa = .ge) (lb : ob = .gt ∨ ob = .ge) (z : SVal) :
    (gtLess E a b = true → Holds E z a → Holds E z b) ∧ (gtLess E a b = false → Holds E z b → Holds E z a) := by
  have hs := bound_cmp ha hb
  rw [bound_holds ha, bound_holds hb]
  have hl : gtLess E a b = true ↔ y.cmp x = .lt ∨ (x = y ∧ oa = .gt) := by
    simp only [gtLess, Bool.or_eq_true, decide_eq_true_eq, Bool.and_eq_true, beq_iff_eq, bound_op ha]
    rw [← cmp_gt_iff, ← hs, sgn_gt, ← Expr.SVal.cmp_eq, ← hs, sgn_eq]
  have hle : ∀ {u v : SVal} {o : Op}, (o = .gt ∨ o = .ge) → rel o u v = true → v.cmp u ≠ .gt := by
    rintro u v o (rfl | rfl) h
    · simp only [rel, decide_eq_true_eq] at h; rw [h]; simp
    · simp only [rel, decide_eq_true_eq] at h
      rcases h with h | h
      · rw [h]; simp
      · rw [Expr.SVal.cmp_eq.mpr h.symm]; simp
  have hlt : ∀ {u v : SVal} {o : Op}, (o = .gt ∨ o = .ge) → v.cmp u = .lt → rel o u v = true := by
    rintro u v o (rfl | rfl) h <;> simp [rel, h]
  constructor
  · rw [hl]
    rintro (h | ⟨rfl, rfl⟩) hz
    · exact hlt lb (cmp_lt_of_lt_of_le h (hle la hz))
    · simp only [rel, decide_eq_true_eq] at hz
      exact hlt lb hz
  · intro h hz
    have h' : ¬ (y.cmp x = .lt ∨ (x = y ∧ oa = .gt)) := fun c => by rw [hl.mpr c] at h; cases h
    by_cases hxy : x = y
    · subst hxy
      have : oa = .ge := by
        rcases la with rfl | rfl
        · exact absurd (.inr ⟨rfl, rfl⟩) h'
        · rfl
      subst this
      rcases lb with rfl | rfl
      · simp only [rel, decide_eq_true_eq] at hz ⊢; exact .inl hz
      · exact hz
    · have : x.cmp y = .lt := by
        cases hc : x.cmp y with
        | lt => rfl
        | eq => exact absurd (Expr.SVal.cmp_eq.mp hc) hxy
        | gt => exact absurd (.inl (cmp_gt_iff.mp hc)) h'
      exact hlt la (cmp_lt_of_lt_of_le this (hle lb hz))

theorem best_mem (less : PE → PE → Bool) (b : PE) (l : List PE) : best less b l ∈ b :: l := by
  induction l generalizing b with
  | nil => simp [best]
  | cons x l ih =>
    simp only [best]
    split
    · exact List.mem_cons_of_mem _ (ih x)
    · have := ih b
      rcases List.mem_cons.mp this with h | h
      · rw [h]; simp
      · exact List.mem_cons_of_mem _ (List.mem_cons_of_mem _ h)

theorem best_imp {less : PE → PE → Bool} {Q : PE → Prop} (b : PE) (l : List PE)
    (h : ∀ x ∈ b :: l, ∀ y ∈ b :: l, (less x y = true → Q x → Q y) ∧ (less x y = false → Q y → Q x)) :
    Q (best less b l) → ∀ x ∈ b :: l, Q x := by
  induction l generalizing b with
  | nil => intro hq x hx; simp only [List.mem_singleton] at hx; subst hx; exact hq
  | cons y l ih =>
    simp only [best]
    split
    · rename_i hl
      intro hq
      have hy := ih y (fun a ha c hc => h a (List.mem_cons_of_mem _ ha) c (List.mem_cons_of_mem _ hc)) hq
      intro x hx
      rcases List.mem_cons.mp hx with rfl | hx
      · exact (h y (by simp) x (by simp)).1 hl (hy y (by simp))
      · exact hy x hx
    · rename_i hl
      intro hq
      have sub : ∀ a ∈ b :: l, a ∈ b :: y :: l := by
        intro a ha
        rcases List.mem_cons.mp ha with rfl | ha
        · simp
        · exact List.mem_cons_of_mem _ (List.mem_cons_of_mem _ ha)
      have hb := ih b (fun a ha c hc => h a (sub a ha) c (sub c hc)) hq
      intro x hx
      rcases List.mem_cons.mp hx with rfl | hx
      · exact hb x (by simp)
      · rcases List.mem_cons.mp hx with rfl | hx
        · exact (h x (by simp) b (by simp)).2 (by simpa using hl) (hb b (by simp))
        · exact hb x (List.mem_cons_of_mem _ hx)

/-- The chosen bound stands for all of its side. -/
theorem best_bound (E : Env) {S : Schema} {i : Nat} {cs : List PE} (hi : Inv S E cs) {k : Kind} (hk : k = .lt ∨ k = .gt)
    {b : PE} {l : List PE} (h : cs.filter (hasKind i k) = b :: l) :
    let m := best (if k = .lt then ltLess E else gtLess E) b l
    m ∈ cs ∧ classify m = some (i, k) ∧ ∀ z, Holds E z m ↔ ∀ e ∈ cs, classify e = some (i, k) → Holds E z e := by
  intro m
  have hall : ∀ e ∈ b :: l, e ∈ cs ∧ classify e = some (i, k) := by
    intro e he
    rw [← h] at he
    obtain ⟨h1, h2⟩ := List.mem_filter.mp he
    exact ⟨h1, hasKind_iff.mp h2⟩
  have hm := hall m (best_mem _ b l)
  refine ⟨hm.1, hm.2, fun z => ⟨fun hz e he hc => ?_, fun hz => hz m hm.1 hm.2⟩⟩
  refine best_imp (Q := Holds E z) b l (fun x hx y hy => ?_) hz e ?_
  · obtain ⟨hx1, hx2⟩ := hall x hx
    obtain ⟨hy1, hy2⟩ := hall y hy
    obtain ⟨oa, xa, ba, ha1, ha2⟩ := bound_of (hi x hx1 i k hx2) hx2 hk
    obtain ⟨ob, xb, bb, hb1, hb2⟩ := bound_of (hi y hy1 i k hy2) hy2 hk
    rcases hk with rfl | rfl
    · exact lt_imp ba bb (ha1 rfl) (hb1 rfl) z
    · exact gt_imp ba bb (ha2 rfl) (hb2 rfl) z
  · rw [← h]; exact List.mem_filter.mpr ⟨he, hasKind_iff.mpr hc⟩

theorem toEq_bound {E : Env} {S : Schema} {i : Nat} {e : PE} {op : Op} {y : SVal} (h : Bound S E i e op y) :
    Bound S E i (toEq E e) .eq y := by
  obtain ⟨l, rfl, h1, h2, h3, h4, h5⟩ := h.shape
  have hc : Lit.castCol E { l with ty := (S i).1 } (qOf (S i).1) = ⟨l.v, l.v.ty⟩ := by
    rw [castCol_plain]
    · simp only [cast_same' E h3]
    · rintro ⟨a, b⟩
      simp only [h3] at b
      rcases a with a | a | a | a <;> rw [a] at b <;> simp [VTy.isInt] at b
  refine ⟨⟨l.v, l.v.ty⟩, ?_, h1, rfl, h3, h4, h5⟩
  simp only [toEq, inferCmp, PE.isSlot, isConst, Bool.and_self, if_true, retype, PE.colTy, argTy_self h5, castArg, hc]

/-- The branch with bounds only. -/
theorem cutRange_ok (E : Env) {S : Schema} {i : Nat} {cs : List PE} (hi : Inv S E cs)
    (hnoeq : cs.filter (hasKind i .eq) = []) (hnoin : cs.filter (hasKind i .inn) = []) :
    match cutRange E i cs with
    | some cs' => (∀ r, RowOk S r → ((∀ e ∈ cs', K E r e) ↔ ∀ e ∈ cs, K E r e)) ∧ Inv S E cs'
    | none => ∀ r, RowOk S r → ¬ ∀ e ∈ cs, K E r e := by
  -- on the column there are only bounds
  have hall : ∀ r, RowOk S r → ((∀ e ∈ cs, K E r e) ↔
      ((∀ e ∈ cs, classify e = some (i, .lt) → K E r e) ∧ ∀ e ∈ cs, classify e = some (i, .gt) → K E r e) ∧
        ∀ e ∈ cs.filter (fun e => !onSlot i e), K E r e) := by
    intro r _
    rw [forall_split (p := onSlot i)]
    refine and_congr_left fun _ => ?_
    constructor
    · intro h
      exact ⟨fun e he hc => h e (List.mem_filter.mpr ⟨he, onSlot_iff.mpr ⟨_, hc⟩⟩),
        fun e he hc => h e (List.mem_filter.mpr ⟨he, onSlot_iff.mpr ⟨_, hc⟩⟩)⟩
    · rintro ⟨h1, h2⟩ e he
      obtain ⟨he1, he2⟩ := List.mem_filter.mp he
      obtain ⟨k, hk⟩ := onSlot_iff.mp he2
      cases k with
      | eq =>
        have : e ∈ cs.filter (hasKind i .eq) := List.mem_filter.mpr ⟨he1, hasKind_iff.mpr hk⟩
        rw [hnoeq] at this; simp at this
      | inn =>
        have : e ∈ cs.filter (hasKind i .inn) := List.mem_filter.mpr ⟨he1, hasKind_iff.mpr hk⟩
        rw [hnoin] at this; simp at this
      | lt => exact h1 e he1 hk
      | gt => exact h2 e he1 hk
  -- one side, expressed through its chosen bound
  have side : ∀ k, (k = .lt ∨ k = .gt) → ∀ b l, cs.filter (hasKind i k) = b :: l →
      let m := best (if k = .lt then ltLess E else gtLess E) b l
      Good S E m ∧ classify m = some (i, k) ∧
      ∀ r, RowOk S r → (K E r m ↔ ∀ e ∈ cs, classify e = some (i, k) → K E r e) := by
    intro k hk b l h m
    obtain ⟨h1, h2, h3⟩ := best_bound E hi hk h
    have hg := hi m h1 i k h2
    refine ⟨hg, h2, fun r hr => ⟨fun hm e he hc => ?_, fun hm => hm m h1 h2⟩⟩
    obtain ⟨x, hx, hx'⟩ := (K_good E hr hg h2).mp hm
    exact (K_good E hr (hi e he i k hc) hc).mpr ⟨x, hx, (h3 x).mp hx' e he hc⟩
  have nol : ∀ k, cs.filter (hasKind i k) = [] → ∀ r, ∀ e ∈ cs, classify e = some (i, k) → K E r e := by
    intro k h r e he hc
    have : e ∈ cs.filter (hasKind i k) := List.mem_filter.mpr ⟨he, hasKind_iff.mpr hc⟩
    rw [h] at this; simp at this
  simp only [cutRange]
  cases hl : cs.filter (hasKind i .lt) with
  | nil =>
    cases hg : cs.filter (hasKind i .gt) with
    | nil => exact ⟨fun _ _ => Iff.rfl, hi⟩
    | cons g gs =>
      obtain ⟨g1, g2, g3⟩ := side .gt (.inr rfl) g gs hg
      refine ⟨fun r hr => ?_, inv_cons g1 (inv_filter hi _)⟩
      rw [List.forall_mem_cons, hall r hr]
      refine and_congr_left fun _ => ?_
      exact (g3 r hr).trans ⟨fun h => ⟨nol .lt hl r, h⟩, fun h => h.2⟩
  | cons l ls =>
    obtain ⟨l1, l2, l3⟩ := side .lt (.inl rfl) l ls hl
    simp only [if_true] at l1 l2 l3
    cases hg : cs.filter (hasKind i .gt) with
    | nil =>
      refine ⟨fun r hr => ?_, inv_cons l1 (inv_filter hi _)⟩
      rw [List.forall_mem_cons, hall r hr]
      refine and_congr_left fun _ => ?_
      exact (l3 r hr).trans ⟨fun h => ⟨h, nol .gt hg r⟩, fun h => h.1⟩
    | cons g gs =>
      obtain ⟨g1, g2, g3⟩ := side .gt (.inr rfl) g gs hg
      simp only [reduceCtorEq, if_false] at g1 g2 g3
      simp only []
      generalize best (ltLess E) l ls = hi' at l1 l2 l3 ⊢
      generalize best (gtLess E) g gs = lo at g1 g2 g3 ⊢
      obtain ⟨oh, yh, bh, hh, _⟩ := bound_of l1 l2 (.inl rfl)
      obtain ⟨og, yg, bg, _, hgg⟩ := bound_of g1 g2 (.inr rfl)
      have hoh := hh rfl
      have hog := hgg rfl
      have hs := bound_cmp bh bg
      have two : ∀ r, RowOk S r → ((∀ e ∈ cs, K E r e) ↔ (K E r hi' ∧ K E r lo) ∧
          ∀ e ∈ cs.filter (fun e => !onSlot i e), K E r e) := by
        intro r hr
        rw [hall r hr, l3 r hr, g3 r hr]
      have both : ∀ r, RowOk S r → K E r hi' → K E r lo → ∃ x, sem (r i) = some x ∧ rel oh x yh = true ∧ rel og x yg = true := by
        intro r hr h1 h2
        obtain ⟨x, hx, e1⟩ := (K_good E hr l1 l2).mp h1
        obtain ⟨x', hx', e2⟩ := (K_good E hr g1 g2).mp h2
        rw [hx] at hx'; cases hx'
        exact ⟨x, hx, (bound_holds bh x).mp e1, (bound_holds bg x).mp e2⟩
      -- a value within both bounds
      have ord : ∀ x, rel oh x yh = true → rel og x yg = true →
          yg.cmp yh = .lt ∨ (yg = yh ∧ x = yh ∧ oh = .le ∧ og = .ge) := by
        intro x e1 e2
        rcases hoh with rfl | rfl <;> rcases hog with rfl | rfl <;> simp only [rel, decide_eq_true_eq] at e1 e2
        · exact .inl (cmp_lt_of_lt_of_le e2 (by rw [e1]; simp))
        · rcases e2 with e2 | rfl
          · exact .inl (cmp_lt_of_lt_of_le e2 (by rw [e1]; simp))
          · exact .inl e1
        · rcases e1 with e1 | rfl
          · exact .inl (cmp_lt_of_lt_of_le e2 (by rw [e1]; simp))
          · exact .inl e2
        · rcases e1 with e1 | rfl <;> rcases e2 with e2 | rfl
          · exact .inl (cmp_lt_of_lt_of_le e2 (by rw [e1]; simp))
          · exact .inl e1
          · exact .inl e2
          · exact .inr ⟨rfl, rfl, rfl, rfl⟩
      by_cases c1 : cmpDiff (rhsVal E hi') (rhsVal E lo) < 0
      · rw [if_pos c1]
        intro r hr h
        obtain ⟨⟨h1, h2⟩, _⟩ := (two r hr).mp h
        obtain ⟨x, _, e1, e2⟩ := both r hr h1 h2
        rw [← sgn_lt, hs] at c1
        rcases ord x e1 e2 with h | ⟨h, _⟩
        · rw [cmp_gt_iff.mpr h] at c1; cases c1
        · rw [Expr.SVal.cmp_eq.mpr h.symm] at c1; cases c1
      · rw [if_neg c1]
        by_cases c2 : cmpDiff (rhsVal E hi') (rhsVal E lo) = 0
        · rw [if_pos c2]
          rw [← sgn_eq, hs, Expr.SVal.cmp_eq] at c2
          subst c2
          have notlt : yh.cmp yh ≠ .lt := by rw [Expr.SVal.cmp_eq.mpr rfl]; simp
          rw [bound_op bh, bound_op bg]
          by_cases c3 : oh = .le ∧ og = .ge
          · rw [if_pos c3]
            obtain ⟨rfl, rfl⟩ := c3
            have be := toEq_bound (E := E) bh
            have hge := bound_good be
            have hce : classify (toEq E hi') = some (i, .eq) := by
              obtain ⟨l, e, _⟩ := be.shape
              rw [e]; rfl
            refine ⟨fun r hr => ?_, inv_cons hge (inv_filter hi _)⟩
            rw [List.forall_mem_cons, two r hr]
            refine and_congr_left fun _ => ?_
            rw [K_good E hr hge hce, K_good E hr l1 l2, K_good E hr g1 g2]
            constructor
            · rintro ⟨x, hx, h⟩
              have := (bound_holds be x).mp h
              simp only [rel, decide_eq_true_eq] at this
              subst this
              exact ⟨⟨x, hx, (bound_holds bh x).mpr (by simp [rel])⟩, ⟨x, hx, (bound_holds bg x).mpr (by simp [rel])⟩⟩
            · rintro ⟨⟨x, hx, h1⟩, ⟨x', hx', h2⟩⟩
              rw [hx] at hx'; cases hx'
              rcases ord x ((bound_holds bh x).mp h1) ((bound_holds bg x).mp h2) with h | ⟨_, h, _⟩
              · exact absurd h notlt
              · exact ⟨x, hx, (bound_holds be x).mpr (by simp [rel, h])⟩
          · rw [if_neg c3]
            intro r hr h
            obtain ⟨⟨h1, h2⟩, _⟩ := (two r hr).mp h
            obtain ⟨x, _, e1, e2⟩ := both r hr h1 h2
            rcases ord x e1 e2 with h | ⟨_, _, h, h'⟩
            · exact notlt h
            · exact c3 ⟨h, h'⟩
        · rw [if_neg c2]
          refine ⟨fun r hr => ?_, inv_cons l1 (inv_cons g1 (inv_filter hi _))⟩
          rw [List.forall_mem_cons, List.forall_mem_cons, two r hr, and_assoc]

/-- One column. -/
theorem cutSlot_ok (E : Env) {S : Schema} {i : Nat} {cs : List PE} (hi : Inv S E cs) :
    match cutSlot E cs i with
    | some cs' => (∀ r, RowOk S r → ((∀ e ∈ cs', K E r e) ↔ ∀ e ∈ cs, K E r e)) ∧ Inv S E cs'
    | none => ∀ r, RowOk S r → ¬ ∀ e ∈ cs, K E r e := by
  by_cases hlen : (cs.filter (onSlot i)).length ≤ 1
  · simp only [cutSlot, if_pos hlen]
    exact ⟨fun _ _ => trivial, hi⟩
  · simp only [cutSlot, if_neg hlen]
    cases he : cs.filter (hasKind i .eq) with
    | cons e es =>
      simp only
      have hm : e ∈ cs.filter (hasKind i .eq) := by rw [he]; simp
      obtain ⟨h1, h2⟩ := List.mem_filter.mp hm
      rw [hasKind_iff] at h2
      have hg := hi e h1 i .eq h2
      refine ⟨fun r hr => ?_, cutEq_inv E false cs hi⟩
      rcases slot_of_good hg h2 with ⟨op, l, rfl, a1, a2, a3, a4⟩ | ⟨_, _, _, c, _⟩
      · have hop : op = .eq := by cases op <;> simp [classify] at h2; rfl
        subst hop
        have hv := lit_valOk a1 a3 a4
        obtain ⟨_, y, hy⟩ := valOk_sem hv
        simp only [rhsVal, eval, Lit.value, cast_same' E a2.symm]
        have first : K E r (.cmp .eq (qOf (S i).1) (.slot i (S i).1) (.lit l)) → sem (r i) = some y := by
          intro hk
          obtain ⟨x, hx, y', hy', hrel⟩ := (K_good E hr hg h2).mp hk
          rw [hy] at hy'; cases hy'
          simp only [rel, decide_eq_true_eq] at hrel
          rw [hx, hrel]
        constructor
        · intro h
          exact (cutEq_same E hr hv hy (first (h _ (cutEq_first he))) false cs hi).mp h
        · intro h
          exact (cutEq_same E hr hv hy (first (h _ h1)) false cs hi).mpr h
      · cases c
    | nil =>
      cases hn : cs.filter (hasKind i .inn) with
      | cons f os => exact cutIn_ok E hi he hn
      | nil => exact cutRange_ok E hi he hn

theorem cutAll_ok (E : Env) {S : Schema} (is : List Nat) {cs : List PE} (hi : Inv S E cs) :
    match cutAll E is cs with
    | some cs' => ∀ r, RowOk S r → ((∀ e ∈ cs', K E r e) ↔ ∀ e ∈ cs, K E r e)
    | none => ∀ r, RowOk S r → ¬ ∀ e ∈ cs, K E r e := by
  induction is generalizing cs with
  | nil => exact fun _ _ => Iff.rfl
  | cons i is ih =>
    have h1 := cutSlot_ok E (i := i) hi
    simp only [cutAll]
    cases hc : cutSlot E cs i with
    | none => rw [hc] at h1; exact h1
    | some cs' =>
      rw [hc] at h1
      have h2 := ih h1.2
      simp only
      cases hc' : cutAll E is cs' with
      | none =>
        rw [hc'] at h2
        intro r hr h
        exact h2 r hr ((h1.1 r hr).mpr h)
      | some cs'' =>
        rw [hc'] at h2
        intro r hr
        exact (h2 r hr).trans (h1.1 r hr)

theorem dropConst_ok (E : Env) (cs : List PE) :
    match dropConst E cs with
    | some cs' => ∀ r, ((∀ e ∈ cs', K E r e) ↔ ∀ e ∈ cs, K E r e)
    | none => ∀ r, ¬ ∀ e ∈ cs, K E r e := by
  induction cs with
  | nil => exact fun _ => Iff.rfl
  | cons e cs ih =>
    simp only [dropConst]
    by_cases hc : isConst e = true
    · rw [if_pos hc]
      by_cases ht : constTrue E e = true
      · rw [if_pos ht]
        cases hd : dropConst E cs with
        | none =>
          rw [hd] at ih
          intro r h
          exact ih r (fun e' he' => h e' (List.mem_cons_of_mem _ he'))
        | some cs' =>
          rw [hd] at ih
          intro r
          rw [List.forall_mem_cons, K_const hc r]
          exact (ih r).trans ⟨fun h => ⟨ht, h⟩, fun h => h.2⟩
      · rw [if_neg ht]
        intro r h
        exact ht ((K_const hc r).mp (h e (by simp)))
    · rw [if_neg hc]
      cases hd : dropConst E cs with
      | none =>
        rw [hd] at ih
        intro r h
        exact ih r (fun e' he' => h e' (List.mem_cons_of_mem _ he'))
      | some cs' =>
        rw [hd] at ih
        intro r
        simp only [List.forall_mem_cons, ih r]

/-! ## What type inference leaves -/

theorem valOk_of_litOk {t : VTy} {v : EV} (h : litOk t v) (hn : v.ty ≠ .null) : ValOk t v := by
  rcases h with h | ⟨h1, h2, h3⟩ | h
  · exact absurd h hn
  · refine .inl ⟨h1, h2, ?_⟩
    rw [qOf_int h1]
    cases hu : t.isUint
    · simpa [hu] using h3
    · rw [hu] at h3; exact fits_uint h2 h3
  · exact .inr h

/-- A comparison with a literal after inference. -/
theorem infer_good (E : Env) {S : Schema} (op : Op) {i : Nat} {t : VTy} {l : Lit} (h : plainCmp S i t l) :
    ∃ k : Lit, inferCmp E op (.slot i t) (.lit l) = .cmp op (qOf (S i).1) (.slot i (S i).1) (.lit k) ∧
      (IntTy (S i).1 ∨ Direct (S i).1) ∧ k.ty = k.v.ty ∧ k.v.ty = qOf (S i).1 ∧ NotNaN k.v := by
  obtain ⟨rfl, h1, h2, h3⟩ := h
  have hv := valOk_of_litOk h3 h2
  have ht : IntTy (S i).1 ∨ Direct (S i).1 := by
    rcases hv with h | h
    · exact .inl h.1
    · exact .inr h.1
  have hc : Lit.castCol E { l with ty := (S i).1 } (qOf (S i).1) = ⟨cast E l.v (qOf (S i).1), (cast E l.v (qOf (S i).1)).ty⟩ := by
    apply castCol_plain
    rintro ⟨a, b⟩
    rcases hv with h | h
    · rw [qOf_int h.1] at a; split at a <;> simp at a
    · rw [qOf_direct h.1] at a
      simp only [h.2.1] at b
      rcases a with a | a | a | a <;> rw [a] at b <;> simp [VTy.isInt] at b
  have ha := valOk_cast E hv
  obtain ⟨_, x, hx⟩ := valOk_sem hv
  rcases ha with ⟨_, h⟩ | ⟨ha1, ha2, _⟩
  · rw [hx] at h; cases h
  refine ⟨⟨cast E l.v (qOf (S i).1), (cast E l.v (qOf (S i).1)).ty⟩, ?_, ht, rfl, ha1, ha2⟩
  simp only [inferCmp, PE.isSlot, isConst, Bool.and_self, if_true, retype, PE.colTy, argTy_self ht, castArg, hc]

theorem isSlot_fold (E : Env) (e : PE) : (fold E e).isSlot = e.isSlot := by
  cases e <;> simp only [fold] <;> (repeat' split) <;> rfl
theorem isSlot_infer (E : Env) (e : PE) : (infer E e).isSlot = e.isSlot := by
  cases e <;> simp only [infer, inferCmp] <;> rfl
theorem isSlot_foldChild (E : Env) (e : PE) : (foldChild E e).isSlot = e.isSlot := by
  simp only [foldChild]
  split
  · rename_i h
    cases e <;> simp_all [isConst, PE.isSlot]
  · rfl
theorem isSlot_castArg (E : Env) (t : VTy) (e : PE) : (castArg E t e).isSlot = e.isSlot := by cases e <;> rfl

theorem classify_cmp {op : Op} {q : VTy} {a b : PE} (h : a.isSlot = false ∨ b.isSlot = true) :
    classify (.cmp op q a b) = none ∧ eqPair (.cmp op q a b) = none := by
  cases op <;> cases a <;> cases b <;> simp_all [classify, eqPair, PE.isSlot, isConst]

/-- A comparison after preparation: well typed against a literal, or not classified. -/
theorem prep_cmp (E : Env) {S : Schema} {op : Op} {q : VTy} {a b : PE} (h : plain S (.cmp op q a b)) :
    (∃ op' i t l, (a = .slot i t ∧ b = .lit l ∧ op' = op ∨ a = .lit l ∧ b = .slot i t ∧ op' = op.swap) ∧ plainCmp S i t l ∧
      prepare E (.cmp op q a b) = inferCmp E op' (.slot i t) (.lit l)) ∨
    (classify (prepare E (.cmp op q a b)) = none ∧ eqPair (prepare E (.cmp op q a b)) = none) := by
  have gen : ∀ x y : PE, x.isSlot = false ∨ y.isSlot = true →
      classify (inferCmp E op (infer E x) (infer E y)) = none ∧ eqPair (inferCmp E op (infer E x) (infer E y)) = none := by
    intro x y hxy
    simp only [inferCmp]
    apply classify_cmp
    rw [isSlot_castArg, isSlot_castArg, isSlot_infer]
    rcases hxy with hx | hy
    · exact .inl hx
    · right
      have : isConst (infer E y) = false := by rw [isConst_infer]; cases y <;> simp_all [PE.isSlot, isConst]
      rw [this, Bool.and_false, if_neg (by simp), isSlot_infer, hy]
  by_cases ha : a.isSlot = true
  · cases a <;> simp [PE.isSlot] at ha
    rename_i i t
    cases b <;> simp only [plain, PE.isSlot, Bool.true_eq_false, false_and] at h
    · exact .inl ⟨op, i, t, _, .inl ⟨rfl, rfl, rfl⟩, h, rfl⟩
    · right
      exact gen (.slot i t) (.slot _ _) (.inr rfl)
  · by_cases hb : b.isSlot = true
    · cases b <;> simp [PE.isSlot] at hb
      rename_i i t
      cases a <;> simp only [plain, PE.isSlot, Bool.true_eq_false, and_false] at h
      · exact .inl ⟨_, i, t, _, .inr ⟨rfl, rfl, rfl⟩, h, rfl⟩
      · exact absurd rfl ha
    · right
      simp only [Bool.not_eq_true] at ha hb
      simp only [prepare, fold]
      split
      · exact gen _ _ (.inl (by rw [isSlot_fold]; exact ha))
      · split
        · rename_i h'
          simp only [isSlot_fold, hb, Bool.and_false, Bool.false_eq_true] at h'
        · exact gen _ _ (.inl (by rw [isSlot_foldChild, isSlot_fold]; exact ha))

theorem prep_cmp_good (E : Env) {S : Schema} {op : Op} {q : VTy} {a b : PE} (h : plain S (.cmp op q a b)) {i : Nat} {k : Kind}
    (hc : classify (prepare E (.cmp op q a b)) = some (i, k)) : Good S E (prepare E (.cmp op q a b)) := by
  rcases prep_cmp E h with ⟨op', j, t, l, _, h1, h2⟩ | ⟨h, _⟩
  · obtain ⟨k, hk, h3, h4, h5, h6⟩ := infer_good E op' h1
    rw [h2, hk]
    exact .cmp op' j k h3 h4 h5 h6
  · rw [h] at hc; cases hc

/-! ## An OR of equalities -/

theorem orLoop_iff (E : Env) (n : Bool) (vs : List EV) :
    (!(orLoop E n vs).isNull && truth E (orLoop E n vs)) = true ↔ ∃ v ∈ vs, (!v.isNull && truth E v) = true := by
  induction vs generalizing n with
  | nil => cases n <;> simp [orLoop, nullV, boolV, EV.isNull, truth, Expr.getInt, EV.uget]
  | cons v r ih =>
    simp only [orLoop, List.exists_mem_cons_iff]
    by_cases h : (!v.isNull && truth E v) = true
    · rw [if_pos h]
      simp only [h, true_or, iff_true, truth_bool]
      rfl
    · rw [if_neg h, ih]
      simp only [h, Bool.false_eq_true, false_or]

theorem K_or (E : Env) (r : Row) (cs : List PE) : K E r (.or cs) ↔ ∃ c ∈ cs, K E r c := by
  simp only [K, eval, orLoop_iff, evalAll_eq, List.mem_map, exists_exists_and_eq_and]

theorem orItems_spec {i : Nat} : {cs : List PE} → {ls : List Lit} → orItems i cs = some ls →
    (∀ c ∈ cs, ∃ t, ∃ l ∈ ls, eqPair c = some (i, t, l)) ∧ (∀ l ∈ ls, ∃ c ∈ cs, ∃ t, eqPair c = some (i, t, l)) ∧
      (cs ≠ [] → ls ≠ [])
  | [], ls, h => by
    simp only [orItems, Option.some.injEq] at h
    subst h; simp
  | c :: cs, ls, h => by
    simp only [orItems] at h
    split at h
    · rename_i j t l ls' e1 e2
      split at h
      · rename_i hj
        subst hj
        simp only [Option.some.injEq] at h
        subst h
        obtain ⟨h1, h2, _⟩ := orItems_spec e2
        refine ⟨?_, ?_, by simp⟩
        · intro c' hc'
          rcases List.mem_cons.mp hc' with rfl | hc'
          · exact ⟨t, l, by simp, e1⟩
          · obtain ⟨t', l', hl', e⟩ := h1 c' hc'
            exact ⟨t', l', List.mem_cons_of_mem _ hl', e⟩
        · intro l' hl'
          rcases List.mem_cons.mp hl' with rfl | hl'
          · exact ⟨c, by simp, t, e1⟩
          · obtain ⟨c', hc', t', e⟩ := h2 l' hl'
            exact ⟨c', List.mem_cons_of_mem _ hc', t', e⟩
      · cases h
    · cases h

theorem eqPair_shape {c : PE} {i : Nat} {t : VTy} {l : Lit} (h : eqPair c = some (i, t, l)) :
    ∃ q, c = .cmp .eq q (.slot i t) (.lit l) := by
  unfold eqPair at h
  split at h
  · simp only [Option.some.injEq, Prod.mk.injEq] at h
    obtain ⟨rfl, rfl, rfl⟩ := h
    exact ⟨_, rfl⟩
  · cases h

/-- An alternative after preparation. -/
theorem alt_good (E : Env) {S : Schema} {c : PE} (h : plainAlt S c) {i : Nat} {t : VTy} {l : Lit}
    (he : eqPair (prepare E c) = some (i, t, l)) : t = (S i).1 ∧ textual (S i).1 ∧ Good S E (prepare E c) := by
  have key : ∀ op q a b, c = .cmp op q a b → t = (S i).1 ∧ textual (S i).1 ∧ Good S E (prepare E c) := by
    rintro op q a b rfl
    -- an equality after preparation was one before
    have hop : op = .eq := by
      obtain ⟨q', e⟩ := eqPair_shape he
      simp only [prepare, fold] at e
      (repeat' split at e) <;> simp only [infer, inferCmp, PE.cmp.injEq] at e
      · exact e.1
      · cases op <;> simp [Op.swap] at e; rfl
      · exact e.1
    subst hop
    have hp : plain S (.cmp .eq q a b) := by
      cases a <;> cases b <;> simp only [plainAlt, plain] at h ⊢ <;> first | exact h | exact h.1
    rcases prep_cmp E hp with ⟨op', j, u, m, hs, h1, h2⟩ | ⟨_, h'⟩
    · obtain ⟨k, hk, h3, h4, h5, h6⟩ := infer_good E op' h1
      rw [h2, hk] at he
      obtain ⟨q', e⟩ := eqPair_shape he
      simp only [PE.cmp.injEq, PE.slot.injEq, PE.lit.injEq] at e
      obtain ⟨_, _, ⟨rfl, rfl⟩, rfl⟩ := e
      refine ⟨rfl, ?_, by rw [h2, hk]; exact .cmp op' j k h3 h4 h5 h6⟩
      rcases hs with ⟨rfl, rfl, _⟩ | ⟨rfl, rfl, _⟩ <;> simp only [plainAlt] at h <;> (rw [← h.1.1]; exact h.2)
    · rw [h'] at he; cases he
  cases c with
  | cmp op q a b => exact key op q a b rfl
  | _ =>
    exfalso
    obtain ⟨q', e⟩ := eqPair_shape he
    simp only [prepare, fold] at e
    (repeat' split at e) <;> simp [infer] at e

theorem alt_fold (E : Env) {S : Schema} {c : PE} (h : plainAlt S c) {i : Nat} {t : VTy} {l : Lit} {x : PE}
    (hx : x = fold E c ∨ x = foldChild E (fold E c)) (he : eqPair (infer E x) = some (i, t, l)) :
    t = (S i).1 ∧ textual (S i).1 ∧ Good S E (infer E x) := by
  have : infer E x = prepare E c := by
    rcases hx with rfl | rfl
    · rfl
    · simp only [foldChild] at he ⊢
      split
      · rename_i h'
        rw [if_pos h'] at he
        simp [infer, eqPair] at he
      · rfl
  rw [this] at he ⊢
  exact alt_good E h he

theorem prep_or (E : Env) (cs : List PE) :
    ∃ ds : List PE, prepare E (.or cs) = .or (ds.map (infer E)) ∧ ∀ x ∈ ds, ∃ c ∈ cs, x = fold E c ∨ x = foldChild E (fold E c) := by
  simp only [prepare, fold]
  split
  · refine ⟨foldAll E cs, by simp only [infer, inferAll_eq], fun x hx => ?_⟩
    rw [foldAll_eq, List.mem_map] at hx
    obtain ⟨c, hc, rfl⟩ := hx
    exact ⟨c, hc, .inl rfl⟩
  · refine ⟨(foldAll E cs).map (foldChild E), by simp only [infer, inferAll_eq], fun x hx => ?_⟩
    rw [foldAll_eq, List.map_map, List.mem_map] at hx
    obtain ⟨c, hc, rfl⟩ := hx
    exact ⟨c, hc, .inr rfl⟩

/-- An OR that becomes an IN. -/
theorem orToIn_ok (E : Env) {S : Schema} {cs : List PE} (h : ∀ c ∈ cs, plainAlt S c) :
    (∀ i k, classify (orToIn (prepare E (.or cs))) = some (i, k) → Good S E (orToIn (prepare E (.or cs)))) ∧
    (likeLo (orToIn (prepare E (.or cs))) = orToIn (prepare E (.or cs)) ∧ likeHi (orToIn (prepare E (.or cs))) = none) ∧
    ∀ r, RowOk S r → (K E r (orToIn (prepare E (.or cs))) ↔ K E r (prepare E (.or cs))) := by
  obtain ⟨ds, hd, hds⟩ := prep_or E cs
  rw [hd]
  have keepOr : orToIn (.or (ds.map (infer E))) = .or (ds.map (infer E)) →
      (∀ i k, classify (orToIn (.or (ds.map (infer E)))) = some (i, k) → Good S E (orToIn (.or (ds.map (infer E))))) ∧
      (likeLo (orToIn (.or (ds.map (infer E)))) = orToIn (.or (ds.map (infer E))) ∧
        likeHi (orToIn (.or (ds.map (infer E)))) = none) ∧
      ∀ r, RowOk S r → (K E r (orToIn (.or (ds.map (infer E)))) ↔ K E r (.or (ds.map (infer E)))) := by
    intro e
    rw [e]
    exact ⟨fun i k hc => by simp [classify] at hc, ⟨rfl, rfl⟩, fun _ _ => Iff.rfl⟩
  cases hm : ds.map (infer E) with
  | nil => rw [hm] at keepOr; exact keepOr rfl
  | cons c ms =>
    rw [hm] at keepOr
    cases he : eqPair c with
    | none => exact keepOr (by simp only [orToIn, he])
    | some p =>
      obtain ⟨i, t, l0⟩ := p
      by_cases h63 : i ≤ 63
      · cases ho : orItems i (c :: ms) with
        | none => exact keepOr (by simp only [orToIn, he, if_pos h63, ho])
        | some ls =>
          have e : orToIn (.or (c :: ms)) = .isIn (.slot i t) ls false := by simp only [orToIn, he, if_pos h63, ho]
          rw [e]
          obtain ⟨h1, h2, h3⟩ := orItems_spec ho
          have good : ∀ x ∈ c :: ms, ∀ u m, eqPair x = some (i, u, m) → u = (S i).1 ∧ textual (S i).1 ∧ Good S E x := by
            intro x hx u m hu
            rw [← hm, List.mem_map] at hx
            obtain ⟨y, hy, rfl⟩ := hx
            obtain ⟨c', hc', hy'⟩ := hds y hy
            exact alt_fold E (h c' hc') hy' hu
          obtain ⟨rfl, htx, _⟩ := good c (by simp) t l0 he
          have items : ∀ l ∈ ls, ItemOk E (S i).1 l ∧ l.value E = l.v := by
            intro l hl
            obtain ⟨x, hx, u, hu⟩ := h2 l hl
            obtain ⟨rfl, _, hg⟩ := good x hx u l hu
            obtain ⟨q, rfl⟩ := eqPair_shape hu
            cases hg with
            | cmp _ _ _ g1 g2 g3 g4 =>
              have hval : l.value E = l.v := cast_same' E g2.symm
              refine ⟨?_, hval⟩
              have hv := lit_valOk g1 g3 g4
              rcases htx with ht | ht
              · left
                rcases hv with ⟨_, b, c⟩ | ⟨b, _⟩
                · exact ⟨ht, by rw [g2]; exact b, by rw [hval]; exact b, by rw [hval]; exact c⟩
                · exact absurd ht (direct_not_int b)
              · right
                rw [ht, qOf_direct string_direct] at g3
                exact ⟨ht, by rw [g2, g3], by rw [hval, g3]⟩
          have hg : Good S E (.isIn (.slot i (S i).1) ls false) := .inn i ls false htx (h3 (by simp)) (fun l hl => (items l hl).1)
          refine ⟨fun _ _ _ => hg, ⟨rfl, rfl⟩, fun r hr => ?_⟩
          rw [K_good E hr hg rfl, K_or]
          constructor
          · rintro ⟨x, hx, l, hl, hv⟩
            obtain ⟨y, hy, u, hu⟩ := h2 l hl
            obtain ⟨rfl, _, hgy⟩ := good y hy u l hu
            obtain ⟨q, rfl⟩ := eqPair_shape hu
            refine ⟨_, hy, (K_good E hr hgy (i := i) (k := .eq) (by simp [classify, isConst])).mpr ⟨x, hx, x, ?_, by simp [rel]⟩⟩
            rw [← (items l hl).2]; exact hv
          · rintro ⟨y, hy, hk⟩
            obtain ⟨u, l, hl, hu⟩ := h1 y hy
            obtain ⟨rfl, _, hgy⟩ := good y hy u l hu
            obtain ⟨q, rfl⟩ := eqPair_shape hu
            obtain ⟨x, hx, y', hy', hrel⟩ := (K_good E hr hgy (i := i) (k := .eq) (by simp [classify, isConst])).mp hk
            simp only [rel, decide_eq_true_eq] at hrel
            subst hrel
            exact ⟨x, hx, l, hl, by rw [(items l hl).2]; exact hy'⟩
      · exact keepOr (by simp only [orToIn, he, if_neg h63])

/-! ## LIKE -/

theorem strLit_good (E : Env) {S : Schema} {i : Nat} (hs : (S i).1 = .string) (op : Op) (s : Bytes) :
    Good S E (.cmp op .string (.slot i .string) (strLit s)) := by
  have := Good.cmp (E := E) (S := S) op i ⟨⟨.string, 0, s⟩, .string⟩ (.inr (by rw [hs]; exact string_direct)) rfl
    (by rw [hs, qOf_direct string_direct]) (by constructor <;> simp)
  rw [hs, qOf_direct string_direct] at this
  exact this

theorem like_ok (E : Env) {S : Schema} {ch : Like.Charset} {i : Nat} {t : VTy} {pat : Bytes}
    (h : plain S (.like ch (.slot i t) pat)) :
    (∀ j k, classify (likeLo (.like ch (.slot i t) pat)) = some (j, k) → Good S E (likeLo (.like ch (.slot i t) pat))) ∧
    (∀ e, likeHi (.like ch (.slot i t) pat) = some e → Good S E e) ∧
    ∀ r, RowOk S r → textOk r (.like ch (.slot i t) pat) →
      ((K E r (likeLo (.like ch (.slot i t) pat)) ∧ ∀ e, likeHi (.like ch (.slot i t) pat) = some e → K E r e) ↔
        K E r (.like ch (.slot i t) pat)) := by
  obtain ⟨rfl, hnn, hgb, ⟨P, hP⟩, hff, hesc⟩ := h
  by_cases hs : (S i).1 = .string
  · rw [hs]
    cases hr' : Like.likeRange pat with
    | none =>
      have e1 : likeLo (.like ch (.slot i .string) pat) = .like ch (.slot i .string) pat := by simp only [likeLo, hr']
      have e2 : likeHi (.like ch (.slot i .string) pat) = none := by simp only [likeHi, hr']
      rw [e1, e2]
      exact ⟨fun j k hc => by simp [classify] at hc, fun e he => (nomatch he), fun r _ _ => by simp⟩
    | some p =>
      obtain ⟨lo, hi⟩ := p
      have e1 : likeLo (.like ch (.slot i .string) pat) = .cmp .ge .string (.slot i .string) (strLit lo) := by
        simp only [likeLo, hr']
      have e2 : likeHi (.like ch (.slot i .string) pat) = some (.cmp .lt .string (.slot i .string) (strLit hi)) := by
        simp only [likeHi, hr']
      rw [e1, e2]
      have g1 := strLit_good E hs .ge lo
      have g2 := strLit_good E hs .lt hi
      refine ⟨fun _ _ _ => g1, fun e he => (by cases he; exact g2), fun r hr ⟨T, hT⟩ => ?_⟩
      have hrow : (r i).ty = .string := by
        rcases hr i with ⟨_, h⟩ | ⟨h, _⟩
        · rw [hnn] at h; cases h
        · rw [h, hs]
      have hsem : sem (r i) = some (.str (r i).s) := by
        cases hri : r i with
        | mk ty u s => rw [hri] at hrow; simp only at hrow; subst hrow; rfl
      have shape : pat = lo ++ [0x25#8] ∧ ∀ b ∈ lo, Like.Plain b := by
        rcases Like.C26_range_shape hr' with h | ⟨a, _, _, h⟩
        · exact h
        · exact absurd ⟨a, h⟩ hesc
      have hne : lo ≠ [] := (Like.likeRange_shape hr').2.1
      have hlo : ∃ b ∈ lo, b ≠ 0xFF#8 := by
        cases lo with
        | nil => exact absurd rfl hne
        | cons b bs =>
          refine ⟨b, by simp, fun hb => hff ?_⟩
          rw [shape.1, hb]; rfl
      have hbs : 0x5c#8 ∉ pat := by
        rw [shape.1, List.mem_append]
        rintro (hb | hb)
        · exact (shape.2 _ hb).2.2 rfl
        · simp at hb
      have hK : K E r (.like ch (.slot i .string) pat) ↔ Like.likeOne ch (r i).s pat = true := by
        have : cast E (r i) .string = r i := cast_same' E hrow
        simp only [K, eval, this, truth_bool]
        cases Like.likeOne ch (r i).s pat <;> simp [boolV, EV.isNull]
      rw [hK, ← Like.C26_range hgb hT hP hr' hbs hlo, K_good E hr g1 (i := i) (k := .gt) rfl]
      have : (∀ e, some (PE.cmp .lt .string (.slot i .string) (strLit hi)) = some e → K E r e) ↔
          K E r (.cmp .lt .string (.slot i .string) (strLit hi)) := by simp
      rw [this, K_good E hr g2 (i := i) (k := .lt) rfl, hsem]
      have hh : ∀ op b, (∃ x, some (SVal.str (r i).s) = some x ∧ Holds E x (.cmp op .string (.slot i .string) (strLit b))) ↔
          rel op (.str (r i).s) (.str b) = true := by
        intro op b
        have : sem (⟨.string, 0, b⟩ : EV) = some (.str b) := rfl
        simp only [strLit, Holds, this, Option.some.injEq, exists_eq_left']
      rw [hh, hh]
      simp only [rel, decide_eq_true_eq, SVal.cmp, SVal.str.injEq]
      refine and_congr ?_ decide_eq_true_iff
      rw [BLe]
      constructor
      · rintro (h | h)
        · rw [h]; simp
        · rw [bcmp_eq_iff.mpr h.symm]; simp
      · intro h
        cases hc : bcmp lo (r i).s with
        | lt => exact .inl rfl
        | eq => exact .inr (bcmp_eq_iff.mp hc).symm
        | gt => exact absurd hc h
  · have e1 : likeLo (.like ch (.slot i (S i).1) pat) = .like ch (.slot i (S i).1) pat := by
      generalize (S i).1 = t at hs; cases t <;> first | rfl | exact absurd rfl hs
    have e2 : likeHi (.like ch (.slot i (S i).1) pat) = none := by
      generalize (S i).1 = t at hs; cases t <;> first | rfl | exact absurd rfl hs
    rw [e1, e2]
    exact ⟨fun j k hc => by simp [classify] at hc, fun e he => (nomatch he), fun r _ _ => by simp⟩

/-! ## All conjuncts -/

theorem orToIn_id {e : PE} (h : ∀ cs, e ≠ .or cs) : orToIn e = e := by
  cases e <;> first | rfl | exact absurd rfl (h _)

theorem likeLo_id {e : PE} (h : ∀ c a p, e ≠ .like c a p) : likeLo e = e ∧ likeHi e = none := by
  cases e <;> first | exact ⟨rfl, rfl⟩ | exact absurd rfl (h _ _ _)

/-- The list of an IN after inference. -/
theorem in_good (E : Env) {S : Schema} {i : Nat} {items : List Lit} {h : Bool} (ht : textual (S i).1) (hne : items ≠ [])
    (hl : ∀ l ∈ items, l.v.ty ≠ .null ∧ listable (S i).1 l.v) :
    Good S E (.isIn (.slot i (S i).1) (items.map fun l => { l with ty := (S i).1 }) h) := by
  refine .inn i _ h ht (by simpa using hne) (fun l' hl' => ?_)
  obtain ⟨l, hm, rfl⟩ := List.mem_map.mp hl'
  obtain ⟨hn, h | ⟨h1, h2, h3⟩ | ⟨h1, h2, h3⟩⟩ := hl l hm
  · exact absurd h hn
  · left
    obtain ⟨x, hx, _, _⟩ := Expr.sem_int h2
    rcases arg_int E (.inr ⟨h2, h3⟩) h1 with ⟨_, h⟩ | ⟨a, _, y, hy, e⟩
    · rw [hx] at h; cases h
    · rw [hx] at e; cases e
      refine ⟨h1, h1, by simp only [Lit.value, a]; exact h1, ?_⟩
      simp only [Lit.value]
      rw [numOf_eq hy, qOf_int h1]
      rw [numOf_eq hx] at h3
      exact fits_arg h1 h3
  · right
    rcases ht with ht | ht
    · exact absurd ht (direct_not_int h1)
    · refine ⟨ht, ht, ?_⟩
      rw [ht] at h2
      simp only [Lit.value, ht, cast_same' E h2, h2]

/-- One conjunct through the rewrites. -/
theorem step_ok (E : Env) {S : Schema} {e : PE} (h : plain S e) :
    (∀ i k, classify (likeLo (orToIn (prepare E e))) = some (i, k) → Good S E (likeLo (orToIn (prepare E e)))) ∧
    (∀ e', likeHi (orToIn (prepare E e)) = some e' → Good S E e') ∧
    ∀ r, RowOk S r → textOk r e →
      ((K E r (likeLo (orToIn (prepare E e))) ∧ ∀ e', likeHi (orToIn (prepare E e)) = some e' → K E r e') ↔
        K E r (prepare E e)) := by
  -- neither rewrite applies
  have same : (∀ cs, prepare E e ≠ .or cs) → (∀ c a p, prepare E e ≠ .like c a p) →
      (∀ i k, classify (prepare E e) = some (i, k) → Good S E (prepare E e)) → (
      (∀ i k, classify (likeLo (orToIn (prepare E e))) = some (i, k) → Good S E (likeLo (orToIn (prepare E e)))) ∧
      (∀ e', likeHi (orToIn (prepare E e)) = some e' → Good S E e') ∧
      ∀ r, RowOk S r → textOk r e →
        ((K E r (likeLo (orToIn (prepare E e))) ∧ ∀ e', likeHi (orToIn (prepare E e)) = some e' → K E r e') ↔
          K E r (prepare E e))) := by
    intro h1 h2 h3
    rw [orToIn_id h1, (likeLo_id h2).1, (likeLo_id h2).2]
    exact ⟨h3, fun e' he' => (nomatch he'), fun r _ _ => by simp⟩
  cases e with
  | cmp op q a b =>
    have hshape : ∃ op' q' a' b', prepare E (.cmp op q a b) = .cmp op' q' a' b' := by
      simp only [prepare, fold]
      (repeat' split) <;> exact ⟨_, _, _, _, rfl⟩
    obtain ⟨op', q', a', b', hs⟩ := hshape
    exact same (by simp [hs]) (by simp [hs]) (fun i k hc => prep_cmp_good E h hc)
  | or cs =>
    obtain ⟨h1, ⟨h2, h3⟩, h4⟩ := orToIn_ok E h
    rw [h2, h3]
    exact ⟨h1, fun e' he' => (nomatch he'), fun r hr _ => by simp [h4 r hr]⟩
  | like ch a p =>
    by_cases ha : a.isSlot = true
    · cases a <;> simp [PE.isSlot] at ha
      exact like_ok E h
    · have hs : prepare E (.like ch a p) = .like ch (infer E (fold E a)) p := by
        simp only [prepare]; rw [fold, infer]
      rw [hs]
      have hx : (infer E (fold E a)).isSlot = false := by rw [isSlot_infer, isSlot_fold]; simpa using ha
      generalize infer E (fold E a) = x at hx
      have key : orToIn (.like ch x p) = .like ch x p ∧ likeLo (.like ch x p) = .like ch x p ∧
          likeHi (.like ch x p) = none := by
        cases x <;> simp_all [PE.isSlot, orToIn, likeLo, likeHi]
      obtain ⟨k1, k2, k3⟩ := key
      rw [k1, k2, k3]
      exact ⟨fun i k hc => by simp [classify] at hc, fun e' he' => (nomatch he'), fun r _ _ => by simp⟩
  | isIn a items hn =>
    by_cases ha : a.isSlot = true
    · cases a <;> simp [PE.isSlot] at ha
      obtain ⟨rfl, h1, h2, h3⟩ := h
      refine same (by simp [prepare, fold, infer]) (by simp [prepare, fold, infer]) (fun j k _ => ?_)
      simp only [prepare, fold, infer, PE.isSlot, if_true, PE.colTy]
      exact in_good E h1 h2 h3
    · refine same (by simp [prepare, fold, infer]) (by simp [prepare, fold, infer]) (fun j k hc => ?_)
      exfalso
      have hx : (infer E (fold E a)).isSlot = false := by rw [isSlot_infer, isSlot_fold]; simpa using ha
      simp only [prepare] at hc
      rw [fold, infer] at hc
      generalize infer E (fold E a) = x at hx hc
      cases x <;> simp_all [PE.isSlot, classify]
  | _ =>
    refine same ?_ ?_ ?_ <;> intros <;> (try (rename_i hc; revert hc)) <;> simp only [prepare, fold] <;> (repeat' split) <;>
      simp [infer, classify]

/-- **C45.** Simplifying the conjuncts of a WHERE clause never changes the rows returned: equalities substituted into
other conjuncts, IN lists intersected, bounds tightened, OR turned into IN, LIKE into a range, constant conjuncts
dropped, or the whole result declared empty.  For every set of conjuncts of which those on a column against constants
are as `plain` says, and every table content. -/
theorem C45_simplify (E : Env) {S : Schema} {cs : List PE} (h : ∀ e ∈ cs, plain S e) (rows : List Row)
    (hr : ∀ r ∈ rows, RowOk S r) (ht : ∀ r ∈ rows, ∀ e ∈ cs, textOk r e) :
    match simplify E cs with
    | some out => filter E out rows = filter E (cs.map (prepare E)) rows
    | none => filter E (cs.map (prepare E)) rows = [] := by
  have c3inv : Inv S E (((cs.map fun e => orToIn (prepare E e)).map likeLo) ++
      (cs.map fun e => orToIn (prepare E e)).filterMap likeHi) := by
    intro e he i k hc
    rcases List.mem_append.mp he with he | he
    · simp only [List.map_map, List.mem_map, Function.comp] at he
      obtain ⟨e0, he0, rfl⟩ := he
      exact (step_ok E (h e0 he0)).1 i k hc
    · simp only [List.mem_filterMap, List.mem_map, exists_exists_and_eq_and] at he
      obtain ⟨e0, he0, hh⟩ := he
      exact (step_ok E (h e0 he0)).2.1 e hh
  have c3same : ∀ r ∈ rows, ((∀ e ∈ ((cs.map fun e => orToIn (prepare E e)).map likeLo) ++
      (cs.map fun e => orToIn (prepare E e)).filterMap likeHi, K E r e) ↔ ∀ e ∈ cs.map (prepare E), K E r e) := by
    intro r hm
    constructor
    · intro hk e he
      obtain ⟨e0, he0, rfl⟩ := List.mem_map.mp he
      refine ((step_ok E (h e0 he0)).2.2 r (hr r hm) (ht r hm e0 he0)).mp ⟨hk _ ?_, fun e' he' => hk _ ?_⟩
      · refine List.mem_append.mpr (.inl ?_)
        simp only [List.map_map, List.mem_map, Function.comp]
        exact ⟨e0, he0, rfl⟩
      · refine List.mem_append.mpr (.inr ?_)
        simp only [List.mem_filterMap, List.mem_map, exists_exists_and_eq_and]
        exact ⟨e0, he0, he'⟩
    · intro hk e he
      rcases List.mem_append.mp he with he | he
      · simp only [List.map_map, List.mem_map, Function.comp] at he
        obtain ⟨e0, he0, rfl⟩ := he
        exact (((step_ok E (h e0 he0)).2.2 r (hr r hm) (ht r hm e0 he0)).mpr (hk _ (List.mem_map_of_mem he0))).1
      · simp only [List.mem_filterMap, List.mem_map, exists_exists_and_eq_and] at he
        obtain ⟨e0, he0, hh⟩ := he
        exact (((step_ok E (h e0 he0)).2.2 r (hr r hm) (ht r hm e0 he0)).mpr (hk _ (List.mem_map_of_mem he0))).2 e hh
  have none_case : (∀ r ∈ rows, ¬ ∀ e ∈ cs.map (prepare E), K E r e) → filter E (cs.map (prepare E)) rows = [] := by
    intro hno
    simp only [filter, List.filter_eq_nil_iff, keep_iff]
    exact hno
  simp only [simplify]
  generalize hc3 : ((cs.map fun e => orToIn (prepare E e)).map likeLo) ++
      (cs.map fun e => orToIn (prepare E e)).filterMap likeHi = c3 at c3inv c3same
  have hcut := cutAll_ok E (slots c3) c3inv
  cases hca : cutAll E (slots c3) c3 with
  | none =>
    rw [hca] at hcut
    refine none_case fun r hm hk => hcut r (hr r hm) ((c3same r hm).mpr hk)
  | some c4 =>
    rw [hca] at hcut
    simp only
    have hdc := dropConst_ok E c4
    cases hd : dropConst E c4 with
    | none =>
      rw [hd] at hdc
      exact none_case fun r hm hk => hdc r ((hcut r (hr r hm)).mpr ((c3same r hm).mpr hk))
    | some out =>
      rw [hd] at hdc
      simp only [filter]
      apply List.filter_congr
      intro r hm
      rw [Bool.eq_iff_iff, keep_iff, keep_iff]
      exact (hdc r).trans ((hcut r (hr r hm)).trans (c3same r hm))

/-- **C45.** Together with C25: the rows returned after simplification are those on which the conditions are true. -/
theorem C45_filter (E : Env) {S : Schema} {cs : List PE} {ps : List Cond} (hd : denoteAll S cs = some ps)
    (h : ∀ e ∈ cs, plain S e) (rows : List Row) (hr : ∀ r ∈ rows, RowOk S r) (ht : ∀ r ∈ rows, ∀ e ∈ cs, textOk r e) :
    (match simplify E cs with | some out => filter E out rows | none => []) =
      rows.filter fun r => ps.all fun p => p.val Like.likeOne (rowOf r) == some true := by
  rw [← C25_filter E hd rows hr]
  have := C45_simplify E h rows hr ht
  cases hs : simplify E cs with
  | none => rw [hs] at this; exact this.symm
  | some out => rw [hs] at this; exact this

/-! ## Not vacuous -/

/-- `a > 5 AND 7 <= a AND (a = 9 OR 6 = a OR a = 9) AND s LIKE 'ab%' AND NOT (a = 8)`. -/
def Spec.exConj : List PE :=
  [.cmp .gt .invalid (.slot 0 .int64) (.lit (exInt 5)), .cmp .le .invalid (.lit (exInt 7)) (.slot 0 .int64),
   .or [.cmp .eq .invalid (.slot 0 .int64) (.lit (exInt 9)), .cmp .eq .invalid (.lit (exInt 6)) (.slot 0 .int64),
     .cmp .eq .invalid (.slot 0 .int64) (.lit (exInt 9))],
   .like .binary (.slot 2 .string) [0x61#8, 0x62#8, 0x25#8],
   .not (.cmp .eq .invalid (.slot 0 .int64) (.lit (exInt 8)))]

example : (∀ e ∈ exConj, plain exSchema e) ∧ ∀ r, ∀ e ∈ exConj, textOk r e := by
  constructor
  · intro e he
    simp only [exConj, List.mem_cons, List.not_mem_nil, or_false] at he
    rcases he with rfl | rfl | rfl | rfl | rfl
    · simp [plain, plainCmp, exSchema, exInt, litOk, IntTy, VTy.isUint, numOf, sem, intShape, Fits, range]
    · simp [plain, plainCmp, exSchema, exInt, litOk, IntTy, VTy.isUint, numOf, sem, intShape, Fits, range]
    · simp [plain, plainAlt, textual, plainCmp, exSchema, exInt, litOk, IntTy, VTy.isUint, numOf, sem, intShape, Fits, range]
    · refine ⟨rfl, rfl, by decide, ⟨_, Like.text_binary _⟩, by decide, ?_⟩
      rintro ⟨a, h⟩
      have := congrArg (fun l => l.reverse.take 2) h
      simp at this
    · trivial
  · intro r e he
    simp only [exConj, List.mem_cons, List.not_mem_nil, or_false] at he
    rcases he with rfl | rfl | rfl | rfl | rfl <;> first | trivial | exact ⟨_, Like.text_binary _⟩

/-- `a > 7 AND a >= 7 AND 9 >= a AND a <= 9` becomes `a <= 9 AND a > 7`. -/
example (E : Env) :
    simplify E [.cmp .gt .invalid (.slot 0 .int64) (.lit (exInt 7)), .cmp .ge .invalid (.slot 0 .int64) (.lit (exInt 7)),
      .cmp .ge .invalid (.lit (exInt 9)) (.slot 0 .int64), .cmp .le .invalid (.slot 0 .int64) (.lit (exInt 9))] =
    some [.cmp .le .int64 (.slot 0 .int64) (.lit (exInt 9)), .cmp .gt .int64 (.slot 0 .int64) (.lit (exInt 7))] := by
  have p7 : ∀ op, prepare E (.cmp op .invalid (.slot 0 .int64) (.lit (exInt 7))) = .cmp op .int64 (.slot 0 .int64) (.lit (exInt 7)) :=
    fun op => rfl
  have p9 : ∀ op, prepare E (.cmp op .invalid (.slot 0 .int64) (.lit (exInt 9))) = .cmp op .int64 (.slot 0 .int64) (.lit (exInt 9)) :=
    fun op => rfl
  have p9' : prepare E (.cmp .ge .invalid (.lit (exInt 9)) (.slot 0 .int64)) = .cmp .le .int64 (.slot 0 .int64) (.lit (exInt 9)) :=
    rfl
  have h7 : cmpDiff (exInt 7).v (exInt 7).v = 0 := by decide
  have h9 : cmpDiff (exInt 9).v (exInt 9).v = 0 := by decide
  have h97 : cmpDiff (exInt 9).v (exInt 7).v = 1 := by decide
  simp only [simplify, List.map, p7, p9, p9', orToIn, likeLo, likeHi, List.filterMap, List.append_nil]
  rw [show slots [PE.cmp .gt .int64 (.slot 0 .int64) (.lit (exInt 7)), .cmp .ge .int64 (.slot 0 .int64) (.lit (exInt 7)),
    .cmp .le .int64 (.slot 0 .int64) (.lit (exInt 9)), .cmp .le .int64 (.slot 0 .int64) (.lit (exInt 9))] = [0] from rfl]
  simp [cutAll, cutSlot, List.filter, classify, hasKind, onSlot, isConst, cutRange, best, rhsVal, eval, Lit.value,
    cast_same' E (show (exInt 7).v.ty = (exInt 7).ty from rfl), cast_same' E (show (exInt 9).v.ty = (exInt 9).ty from rfl),
    h7, h9, h97, opOf, ltLess, gtLess, dropConst]

/-- Contradictory bounds give the empty result. -/
example (E : Env) :
    simplify E [.cmp .gt .invalid (.slot 0 .int64) (.lit (exInt 5)), .cmp .lt .invalid (.slot 0 .int64) (.lit (exInt 5))] = none := by
  have p1 : ∀ op, prepare E (.cmp op .invalid (.slot 0 .int64) (.lit (exInt 5))) = .cmp op .int64 (.slot 0 .int64) (.lit (exInt 5)) :=
    fun op => rfl
  have h0 : cmpDiff (exInt 5).v (exInt 5).v = 0 := by decide
  simp only [simplify, List.map, p1, orToIn, likeLo, likeHi, List.filterMap, List.append_nil]
  rw [show slots [PE.cmp .gt .int64 (.slot 0 .int64) (.lit (exInt 5)), .cmp .lt .int64 (.slot 0 .int64) (.lit (exInt 5))] = [0]
    from rfl]
  simp [cutAll, cutSlot, List.filter, classify, hasKind, onSlot, isConst, cutRange, best, rhsVal, eval, Lit.value,
    cast_same' E (show (exInt 5).v.ty = (exInt 5).ty from rfl), h0, opOf]

/-! ## Where the code deviates -/

/-- `s > 'a' AND s > NULL` is never true, but the bound that is NULL is dropped as the weaker one. -/
theorem C45_null_bound_counterexample (E : Env) :
    let cs := [PE.cmp .gt .invalid (.slot 1 .string) (.lit (exStr [97#8])), .cmp .gt .invalid (.slot 1 .string) (.lit exNull)]
    simplify E cs = some [.cmp .gt .string (.slot 1 .string) (.lit (exStr [97#8]))] ∧
    ∀ r, keep E r (cs.map (prepare E)) = false := by
  have p1 : prepare E (.cmp .gt .invalid (.slot 1 .string) (.lit (exStr [97#8]))) =
      .cmp .gt .string (.slot 1 .string) (.lit (exStr [97#8])) := rfl
  have p2 : prepare E (.cmp .gt .invalid (.slot 1 .string) (.lit exNull)) = .cmp .gt .string (.slot 1 .string) (.lit exNull) := rfl
  have h0 : cmpDiff nullV (exStr [97#8]).v = -1 := by decide
  intro cs
  constructor
  · simp only [cs, simplify, List.map, p1, p2, orToIn, likeLo, likeHi, List.filterMap, List.append_nil]
    rw [show slots [PE.cmp .gt .string (.slot 1 .string) (.lit (exStr [97#8])), .cmp .gt .string (.slot 1 .string) (.lit exNull)]
      = [1] from rfl]
    simp [cutAll, cutSlot, List.filter, classify, hasKind, onSlot, isConst, cutRange, best, rhsVal, eval, Lit.value,
      cast_same' E (show (exStr [97#8]).v.ty = (exStr [97#8]).ty from rfl),
      show cast E exNull.v exNull.ty = nullV from rfl, h0, opOf, gtLess, dropConst]
  · intro r
    simp only [cs, List.map, p1, p2, keep, List.all_cons, List.all_nil, Bool.and_true, eval, Lit.value,
      show cast E exNull.v exNull.ty = nullV from rfl, cast_null E (show nullV.ty = .null from rfl)]
    rw [cmpFn_null .gt .string (y := nullV) (.inr rfl)]
    simp [nullV, EV.isNull]

/-- `s IN ('') AND s IN (NULL)` is never true, but keeps the rows with an empty string: lists are intersected by text, and
the text of NULL is empty. -/
theorem C45_null_list_counterexample (E : Env) :
    let cs := [PE.isIn (.slot 1 .string) [exStr []] false, .isIn (.slot 1 .string) [exNull] false]
    simplify E cs = some [.isIn (.slot 1 .string) [exStr []] false] ∧ ∀ r, keep E r (cs.map (prepare E)) = false := by
  have p1 : prepare E (.isIn (.slot 1 .string) [exStr []] false) = .isIn (.slot 1 .string) [exStr []] false := rfl
  have p2 : prepare E (.isIn (.slot 1 .string) [exNull] false) = .isIn (.slot 1 .string) [⟨nullV, .string⟩] true := rfl
  have h0 : itemText E (exStr []) = [] := rfl
  have h1 : itemText E ⟨nullV, .string⟩ = [] := rfl
  intro cs
  constructor
  · simp only [cs, simplify, List.map, p1, p2, orToIn, likeLo, likeHi, List.filterMap, List.append_nil]
    rw [show slots [PE.isIn (.slot 1 .string) [exStr []] false, .isIn (.slot 1 .string) [⟨nullV, .string⟩] true] = [1] from rfl]
    simp [cutAll, cutSlot, List.filter, classify, hasKind, onSlot, isConst, cutIn, inItems, survives, keepItems, h0, h1, dropConst]
  · intro r
    have e : eval E r (.isIn (.slot 1 .string) [⟨nullV, .string⟩] true) = nullV := by
      have hv : Lit.value E ⟨nullV, .string⟩ = nullV := rfl
      simp only [eval, inFn, List.map, hv]
      rw [show [nullV].filter (fun v => !v.isNull) = [] from rfl]
      simp
    simp only [cs, List.map, p1, p2, keep, List.all_cons, List.all_nil, Bool.and_true, e]
    simp [nullV, EV.isNull]

end BaikalDB.Pred
