import Verif.Plan.Props

/-! # Cases for C50, and conditions for which the planner's rule is false -/

namespace BaikalDB.Plan.Examples

/-- Some of the functions: `=`, `nullif` and `IN` with columns in its list. -/
def F : Fns := fun f as =>
  match f, as with
  | "eq", [some x, some y] => ofBool (x == y)
  | "nullif", [x, y] => if x ≠ none ∧ x = y then none else x
  | "in", x :: vs => vin x vs
  | _, _ => none

def S : String → Bool := fun f => f == "eq"

theorem F_strict : StrictFns F S := by
  intro f hf as ha
  simp only [S, beq_iff_eq] at hf
  subst hf
  unfold F
  split
  · simp at ha
  · simp_all
  · simp_all
  · rfl

def eq (a b : Expr) : Expr := .call "eq" [a, b]

/-- Column `c` of table 0, 1, 2. -/
def a (c : Nat) : Expr := .slot 0 c
def b (c : Nat) : Expr := .slot 1 c
def c (c : Nat) : Expr := .slot 2 c
def n (x : Int) : Expr := .lit (some x)

def row (l : List Int) : Nat → Val := fun i => l[i]?

def types : Tree → List JType
  | .scan _ => []
  | .filter _ p => types p
  | .join ty _ l r => ty :: types l ++ types r

def count (D : Nat → List (Nat → Val)) (ρ : Row) (p : Tree) : Nat := (sem F D ρ p).length

def none' : Row := fun _ _ => none

/-- `a LEFT JOIN b ON a.0 = b.0 LEFT JOIN c ON b.0 = c.0 AND c.1 = 3 WHERE a.1 = 1 AND (c.1 = 3 OR c.1 = 4)` -/
def p0 : Tree :=
  .filter [eq (a 1) (n 1), .or (eq (c 1) (n 3)) (eq (c 1) (n 4))]
    (.join .left [eq (b 0) (c 0), eq (c 1) (n 3)] (.join .left [eq (a 0) (b 0)] (.scan 0) (.scan 1)) (.scan 2))

/-- The same with a condition that keeps the rows without partner. -/
def p1 : Tree :=
  .filter [eq (a 1) (n 1), .or (.isNull (b 1)) (eq (b 1) (n 2))]
    (.join .left [eq (a 0) (b 0), eq (b 1) (n 2)] (.scan 0) (.scan 1))

theorem p0_wf : Wf p0 :=
  ⟨⟨⟨trivial, trivial, by decide, fun _ => by simp [uses], fun h => by rcases h with h | h <;> cases h⟩, trivial, by decide,
    fun _ => by simp [uses, newType, toInner, within, tupsE, tupsEs, eq, b, c, n, tups],
    fun h => by rcases h with h | h <;> cases h⟩,
    .inr (by simp [foreign, within, tupsE, tupsEs, eq, a, c, n, tups])⟩

example : ∀ e ∈ conds p0, plain S e = true := by decide +kernel
example (D : Nat → List (Nat → Val)) (ρ : Row) : (sem F D ρ (pushDown p0)).Perm (sem F D ρ p0) := by
  refine C50_select F_strict p0_wf (by decide) ?_ D ρ
  decide +kernel
example : types p0 = [.left, .left] ∧ types (pushDown p0) = [.inner, .left] := by decide +kernel
/-- The rows are there: one of the two of table 0 has partners. -/
example : count (fun t => [[row [1, 1], row [2, 1]], [row [1, 7]], [row [1, 3]]][t]?.getD []) none' (pushDown p0) = 1 := by
  decide +kernel

example (D : Nat → List (Nat → Val)) (ρ : Row) : (sem F D ρ (pushDown p1)).Perm (sem F D ρ p1) := by
  refine C50_select F_strict ?_ (by decide) (by decide +kernel) D ρ
  exact ⟨⟨trivial, trivial, by decide, fun _ => by simp [uses], fun h => by rcases h with h | h <;> cases h⟩,
    .inr (by simp [foreign, within, tupsE, tupsEs, eq, a, b, n, tups])⟩
example : types (pushDown p1) = [.left] := by decide +kernel

/-- INNER JOINs with a condition the rule is false of. -/
example (D : Nat → List (Nat → Val)) (ρ : Row) :
    (sem F D ρ (pushDown (.filter [.or (eq (b 0) (n 1)) (n 1)] (.join .inner [] (.scan 0) (.scan 1))))).Perm
      (sem F D ρ (.filter [.or (eq (b 0) (n 1)) (n 1)] (.join .inner [] (.scan 0) (.scan 1)))) :=
  C50_inner (by decide) (by decide) D ρ

/-! ## Where the rewriting is wrong -/

/-- `a LEFT JOIN b ON a.0 = b.0` -/
def ab : Tree := .join .left [eq (a 0) (b 0)] (.scan 0) (.scan 1)

/-- One row `(1, 2)` in tables 0 and 2, none in table 1. -/
def D1 : Nat → List (Nat → Val) := fun t => if t = 1 then [] else [row [1, 2]]

/-- The ON condition of a LEFT JOIN turns a LEFT JOIN on its preserved side into an INNER JOIN:
`a LEFT JOIN b ON a.0 = b.0 LEFT JOIN c ON b.1 = 1` loses the rows of `a` without partner in `b`. -/
theorem C50_on_condition_counterexample :
    count D1 none' (.join .left [eq (b 1) (n 1)] ab (.scan 2)) = 1 ∧
      count D1 none' (pushDown (.join .left [eq (b 1) (n 1)] ab (.scan 2))) = 0 := by decide +kernel

/-- `... WHERE nullif(1, b.1)`: a function that takes NULL and is not among the five. -/
theorem C50_nullif_counterexample :
    count D1 none' (.filter [.call "nullif" [n 1, b 1]] ab) = 1 ∧
      count D1 none' (pushDown (.filter [.call "nullif" [n 1, b 1]] ab)) = 0 := by decide +kernel

/-- `... WHERE b.1 IS NOT TRUE` -/
theorem C50_is_not_true_counterexample :
    count D1 none' (.filter [.not (.isTrue (b 1))] ab) = 1 ∧
      count D1 none' (pushDown (.filter [.not (.isTrue (b 1))] ab)) = 0 := by decide +kernel

/-- `... WHERE NOT (a.1 = 1 AND b.1 = 2)` -/
theorem C50_not_and_counterexample :
    count D1 none' (.filter [.not (.and (eq (a 1) (n 1)) (eq (b 1) (n 2)))] ab) = 1 ∧
      count D1 none' (pushDown (.filter [.not (.and (eq (a 1) (n 1)) (eq (b 1) (n 2)))] ab)) = 0 := by decide +kernel

/-- `... WHERE b.1 = 1 OR TRUE` -/
theorem C50_or_constant_counterexample :
    count D1 none' (.filter [.or (eq (b 1) (n 1)) (n 1)] ab) = 1 ∧
      count D1 none' (pushDown (.filter [.or (eq (b 1) (n 1)) (n 1)] ab)) = 0 := by decide +kernel

/-- `... WHERE a.1 IN (b.1, 2)` -/
theorem C50_in_columns_counterexample :
    count D1 none' (.filter [.call "in" [a 1, b 1, n 2]] ab) = 1 ∧
      count D1 none' (pushDown (.filter [.call "in" [a 1, b 1, n 2]] ab)) = 0 := by decide +kernel

/-- A row in table 1 only. -/
def D2 : Nat → List (Nat → Val) := fun t => if t = 1 then [row [1, 2]] else []

/-- `a FULL JOIN b ON a.0 = b.0 WHERE 1` becomes a LEFT JOIN. -/
theorem C50_full_constant_counterexample :
    count D2 none' (.filter [n 1] (.join .full [eq (a 0) (b 0)] (.scan 0) (.scan 1))) = 1 ∧
      count D2 none' (pushDown (.filter [n 1] (.join .full [eq (a 0) (b 0)] (.scan 0) (.scan 1)))) = 0 := by decide +kernel

/-- In a subquery over `a LEFT JOIN b`, a condition on a column of the enclosing query (tuple 9) is dropped: the subquery has
a row though `a.1 = 2` and the enclosing row has 5. -/
theorem C50_correlated_counterexample :
    count D1 (fun t _ => if t = 9 then some 5 else none) (.filter [eq (a 1) (.slot 9 0)] ab) = 0 ∧
      count D1 (fun t _ => if t = 9 then some 5 else none) (pushDown (.filter [eq (a 1) (.slot 9 0)] ab)) = 1 := by
  decide +kernel

end BaikalDB.Plan.Examples
