import Mathlib.Tactic.Common

/-!
# Predicate push-down and the conversion of outer joins

`src/exec/join_node.cpp`, `src/exec/filter_node.cpp`, `src/exec/rocksdb_scan_node.cpp`, `include/exec/joiner.h`,
`src/expr/expr_node.cpp`.  A plan is the part of a SELECT made of its tables, joins and WHERE and table filters.  Columns are
slots of tuples, a tuple per table of the FROM clause.
-/

namespace BaikalDB.Plan

/-- Values: `none` is NULL, truth is "not zero" (`get_numberic<bool>`). -/
abbrev Val := Option Int

/-- Expressions as far as the planner looks into them.  `call` is every `FUNCTION_CALL`, `LIKE`, `REGEXP` and `IN` with
columns in its list, `inList` is `IN` over constants.  AND and OR are n-ary in the code. -/
inductive Expr
  | slot (tuple slot : Nat)
  | lit (v : Val)
  | call (name : String) (args : List Expr)
  | inList (x : Expr) (vs : List Val)
  | and (a b : Expr)
  | or (a b : Expr)
  | xor (a b : Expr)
  | not (a : Expr)
  | isNull (a : Expr)
  | isTrue (a : Expr)

/-- A row of a plan under the rows of the enclosing queries: tuple, slot. -/
abbrev Row := Nat → Nat → Val

def tr : Val → Bool
  | some x => x != 0
  | none => false

def ofBool (b : Bool) : Val := some (if b then 1 else 0)

/-- predicate.h:25-44 -/
def vand (a b : Val) : Val :=
  if a = some 0 ∨ b = some 0 then some 0 else if a = none ∨ b = none then none else some 1

/-- predicate.h:81-103 -/
def vor (a b : Val) : Val :=
  if tr a ∨ tr b then some 1 else if a = none ∨ b = none then none else some 0

/-- predicate.h:138-151 -/
def vxor (a b : Val) : Val :=
  if a = none ∨ b = none then none else ofBool (tr a != tr b)

/-- predicate.h:454-463 -/
def vnot (a : Val) : Val := a.map fun x => if x = 0 then 1 else 0

/-- predicate.cpp `InPredicate::get_value`: TRUE if the value is listed, NULL if not but NULL is listed. -/
def vin (x : Val) (vs : List Val) : Val :=
  if x = none then none else if x ∈ vs then some 1 else if none ∈ vs then none else some 0

/-- What the functions compute. -/
abbrev Fns := String → List Val → Val

mutual
def eval (F : Fns) (r : Row) : Expr → Val
  | .slot t s => r t s
  | .lit v => v
  | .call f as => F f (evalAll F r as)
  | .inList x vs => vin (eval F r x) vs
  | .and a b => vand (eval F r a) (eval F r b)
  | .or a b => vor (eval F r a) (eval F r b)
  | .xor a b => vxor (eval F r a) (eval F r b)
  | .not a => vnot (eval F r a)
  | .isNull a => ofBool (eval F r a).isNone
  | .isTrue a => ofBool (tr (eval F r a))
def evalAll (F : Fns) (r : Row) : List Expr → List Val
  | [] => []
  | a :: as => eval F r a :: evalAll F r as
end

mutual
/-- expr_node.cpp:156-163 `get_all_tuple_ids` -/
def tupsE : Expr → List Nat
  | .slot t _ => [t]
  | .lit _ => []
  | .call _ as => tupsEs as
  | .inList x _ => tupsE x
  | .and a b | .or a b | .xor a b => tupsE a ++ tupsE b
  | .not a | .isNull a | .isTrue a => tupsE a
def tupsEs : List Expr → List Nat
  | [] => []
  | a :: as => tupsE a ++ tupsEs as
end

/-- The functions expr_node.cpp:140-144 knows to give a value for NULL. -/
def nullFns : List String := ["ifnull", "isnull", "if", "case_when", "case_expr_when"]

mutual
/-- expr_node.cpp:136-154 `contains_null_function` -/
def hasNullFn : Expr → Bool
  | .slot _ _ | .lit _ => false
  | .call f as => decide (f ∈ nullFns) || hasNullFns as
  | .inList x _ => hasNullFn x
  | .and a b | .or a b | .xor a b => hasNullFn a || hasNullFn b
  | .isNull _ => true
  | .not a | .isTrue a => hasNullFn a
def hasNullFns : List Expr → Bool
  | [] => false
  | a :: as => hasNullFn a || hasNullFns as
end

mutual
/-- expr_node.h:268-281 `contains_special_operator(OR_PREDICATE)` -/
def hasOr : Expr → Bool
  | .slot _ _ | .lit _ => false
  | .call _ as => hasOrs as
  | .inList x _ => hasOr x
  | .or _ _ => true
  | .and a b | .xor a b => hasOr a || hasOr b
  | .not a | .isNull a | .isTrue a => hasOr a
def hasOrs : List Expr → Bool
  | [] => false
  | a :: as => hasOr a || hasOrs as
end

inductive JType
  | inner | left | right | full
  deriving DecidableEq, Repr

/-- `scan` is a table or a derived table.  The tuples of the two sides of a join are those of the plans below it
(logical_planner.cpp:1191-1237 `fill_join_table_infos`). -/
inductive Tree
  | scan (t : Nat)
  | filter (cs : List Expr) (p : Tree)
  | join (ty : JType) (cs : List Expr) (l r : Tree)

def tups : Tree → List Nat
  | .scan t => [t]
  | .filter _ p => tups p
  | .join _ _ l r => tups l ++ tups r

/-! ## What a plan means -/

def holds (F : Fns) (r : Row) (e : Expr) : Bool := tr (eval F r e)
def holdsAll (F : Fns) (es : List Expr) (r : Row) : Bool := es.all (holds F r)

/-- Columns of the tuples in `T` from `b`, all others from `a`. -/
def merge (T : List Nat) (a b : Row) : Row := fun t => if t ∈ T then b t else a t

/-- All NULL in the tuples `T`. -/
def nulls (T : List Nat) (ρ : Row) : Row := fun t => if t ∈ T then fun _ => none else ρ t

/-- Nested loops. -/
def joinI {α β γ : Type} (m : α → β → γ) (P : γ → Bool) (L : List α) (R : List β) : List γ :=
  L.flatMap fun a => (R.map (m a)).filter P

/-- `[x]` in place of nothing. -/
def orElse {γ : Type} (x : γ) (l : List γ) : List γ := if l.isEmpty then [x] else l

def joinL {α β γ : Type} (m : α → β → γ) (P : γ → Bool) (nul : β) (L : List α) (R : List β) : List γ :=
  L.flatMap fun a => orElse (m a nul) ((R.map (m a)).filter P)

/-- The rows of the right side nothing on the left matches. -/
def lone {α β γ : Type} (m : α → β → γ) (P : γ → Bool) (L : List α) (R : List β) : List β :=
  R.filter fun b => !(L.any fun a => P (m a b))

/-- The rows of a join of the rows `L` and `R`, `A` and `B` their tuples. -/
def joinRows (F : Fns) (ρ : Row) (A B : List Nat) (cs : List Expr) (L R : List Row) : JType → List Row
  | .inner => joinI (merge B) (holdsAll F cs) L R
  | .left => joinL (merge B) (holdsAll F cs) (nulls B ρ) L R
  | .right => joinL (fun b a => merge B a b) (holdsAll F cs) (nulls A ρ) R L
  | .full => joinL (merge B) (holdsAll F cs) (nulls B ρ) L R ++
      (lone (merge B) (holdsAll F cs) L R).map (merge B (nulls A ρ))

/-- The rows of a plan; `D` are the rows of the tables, `ρ` the rows of the enclosing queries a correlated subquery sees. -/
def sem (F : Fns) (D : Nat → List (Nat → Val)) (ρ : Row) : Tree → List Row
  | .scan t => (D t).map fun x t' => if t' = t then x else ρ t'
  | .filter cs p => (sem F D ρ p).filter (holdsAll F cs)
  | .join ty cs l r => joinRows F ρ (tups l) (tups r) cs (sem F D ρ l) (sem F D ρ r) ty

/-! ## What the planner does -/

/-- joiner.h:97-106 `expr_in_tuple_ids` -/
def within (T : List Nat) (e : Expr) : Bool := (tupsE e).all fun t => decide (t ∈ T)

/-- join_node.cpp:205-218: a condition above a LEFT or RIGHT JOIN turns it into an INNER JOIN; `O` and `I` are the tuples of the
preserved side and of the other. -/
def toInner (O I : List Nat) (e : Expr) : Bool :=
  !within O e && ((within I e && !hasNullFn e) || (within (O ++ I) e && !hasNullFn e && !hasOr e))

/-- join_node.cpp:171-190: the conditions above a FULL JOIN that rule out rows without left, without right side. -/
def spans (O I : List Nat) (e : Expr) : Bool :=
  !within O e && !within I e && within (O ++ I) e && !hasNullFn e && !hasOr e
def needsOuter (O I : List Nat) (e : Expr) : Bool := (within O e && !hasNullFn e) || spans O I e
def needsInner (O I : List Nat) (e : Expr) : Bool :=
  (!(within O e && !hasNullFn e) && (within I e && !hasNullFn e)) || spans O I e

/-- join_node.cpp:143-220 `convert_to_inner_join`, the type this node gets. -/
def newType (es : List Expr) (A B : List Nat) : JType → JType
  | .inner => .inner
  | .left => if es.any (toInner A B) then .inner else .left
  | .right => if es.any (toInner B A) then .inner else .right
  | .full =>
    if es.any (needsOuter A B) && es.any (needsInner A B) then .inner
    else if es.any (needsOuter A B) then .left
    else if es.any (needsInner A B) then .right
    else .full

/-- join_node.cpp:143-220: the conditions from above and the join's own are handed to the joins right below. -/
def conv (es : List Expr) : Tree → Tree
  | .scan t => .scan t
  | .filter cs p => .filter cs p
  | .join ty cs l r => .join (newType es (tups l) (tups r) ty) cs (conv (es ++ cs) l) (conv (es ++ cs) r)

/-- exec_node.cpp:148-161 `add_filter_node`, when there are conditions. -/
def wrap (es : List Expr) (p : Tree) : Tree := if es.isEmpty then p else .filter es p

/-- join_node.cpp:70-85: set aside are conditions on columns of an enclosing query. -/
def foreign (T : List Nat) (e : Expr) : Bool := !(tupsE e).isEmpty && !within T e

/-- What goes where at a join: the conditions that stay, those for the outer and for the inner child, and those handed
back. -/
structure Split where
  stay : List Expr
  outer : List Expr
  inner : List Expr
  back : List Expr

/-- join_node.cpp:86-131; `O` and `I` are `_outer_tuple_ids` and `_inner_tuple_ids`.  Not called for a FULL JOIN. -/
def split (ty : JType) (O I : List Nat) (cs es : List Expr) : Split :=
  let es' := es.filter fun e => !foreign (O ++ I) e
  match ty with
  | .inner =>
    { stay := cs.filter (fun e => !within O e && !within I e) ++ es'.filter (fun e => !within O e && !within I e)
      outer := cs.filter (within O) ++ es'.filter (within O)
      inner := cs.filter (fun e => !within O e && within I e) ++ es'.filter (fun e => !within O e && within I e)
      back := es.filter (foreign (O ++ I)) }
  | _ =>
    { stay := cs.filter fun e => !within I e
      outer := es'.filter (within O)
      inner := cs.filter (within I)
      back := es'.filter fun e => !within O e }

def size : Tree → Nat
  | .scan _ => 1
  | .filter _ p => size p + 1
  | .join _ _ l r => size l + size r + 1

theorem size_conv (es : List Expr) (p : Tree) : size (conv es p) = size p := by
  induction p generalizing es with
  | scan t => rfl
  | filter cs p => rfl
  | join ty cs l r ihl ihr => simp [conv, size, ihl, ihr]

/-- `predicate_pushdown`: exec_node.cpp and rocksdb_scan_node.cpp:339-351 for a scan (`pf`: its parent is a filter),
filter_node.cpp:545-567 for a filter, join_node.cpp:63-142 for a join.  The result is the new plan and the conditions handed
back.  `_outer_node` is the right child of a join that is, or was until now, a RIGHT JOIN. -/
def push (pf : Bool) (es : List Expr) : Tree → Tree × List Expr
  | .scan t => if pf then (.scan t, es) else (wrap es (.scan t), [])
  | .filter cs p =>
    let r := push true (es ++ cs) p
    (.filter r.2 r.1, [])
  | .join ty cs l r =>
    let ty' := newType es (tups l) (tups r) ty
    let l' := conv (es ++ cs) l
    let r' := conv (es ++ cs) r
    match ty' with
    | .full => (.join .full cs l' r', es)
    | _ =>
      let swap := decide (ty = .right) || decide (ty' = .right)
      let s := if swap then split ty' (tups r) (tups l) cs es else split ty' (tups l) (tups r) cs es
      let pl := push false (if swap then s.inner else s.outer) l'
      let pr := push false (if swap then s.outer else s.inner) r'
      (.join ty' s.stay (wrap pl.2 pl.1) (wrap pr.2 pr.1), s.back)
termination_by p => size p
decreasing_by
  all_goals simp only [size, size_conv]; omega

/-- predicate_pushdown.h:27-47: what becomes of the plan of a query. -/
def pushDown (p : Tree) : Tree :=
  let r := push false [] p
  wrap r.2 r.1

end BaikalDB.Plan
