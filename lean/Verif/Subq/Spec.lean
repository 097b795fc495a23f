import Verif.Pred.Spec

/-!
# What ANY, ALL, IN, EXISTS and comparison with a subquery mean
-/

namespace BaikalDB.Subq.Spec
open BaikalDB.Expr (VTy EV)
open BaikalDB.Expr.Spec
open BaikalDB.Pred (Op)
open BaikalDB.Pred.Spec

/-- `x op ANY (S)`: true if the comparison is true for some element, false if it is false for all of them. -/
def anyVal (op : Op) (x : Option SVal) (S : List (Option SVal)) : Option Bool :=
  if ∃ y ∈ S, cmp3 op x y = some true then some true
  else if ∀ y ∈ S, cmp3 op x y = some false then some false
  else none

/-- `x op ALL (S)`: false if the comparison is false for some element, true if it is true for all of them. -/
def allVal (op : Op) (x : Option SVal) (S : List (Option SVal)) : Option Bool :=
  if ∃ y ∈ S, cmp3 op x y = some false then some false
  else if ∀ y ∈ S, cmp3 op x y = some true then some true
  else none

/-- The values of a subquery fit a column of type `t`: NULLs and values of one type `u`, integers within the column's range
and within int64 for an integer column, the column's own type otherwise. -/
def Fitting (t u : VTy) (vals : List EV) : Prop :=
  ((IntTy t ∧ IntTy u) ∨ (Direct t ∧ u = t)) ∧
  ∀ v ∈ vals, v.ty = .null ∨ (v.ty = u ∧ NotNaN v ∧ (IntTy t → Fits t (numOf v) ∧ Fits .int64 (numOf v)))

/-- `m` is the largest (smallest) of the values, ignoring NULLs; NULL if there is none. -/
def MinMax (isMax : Bool) (vals : List EV) (m : EV) : Prop :=
  ((∀ v ∈ vals, sem v = none) → m.ty = .null) ∧
  ((∃ v ∈ vals, sem v ≠ none) → m ∈ vals ∧ ∃ z, sem m = some z ∧
    ∀ w ∈ vals, ∀ x, sem w = some x → if isMax then SVal.cmp x z ≠ .gt else SVal.cmp z x ≠ .gt)

/-- Values of one type `u`, or NULL. -/
def Typed (u : VTy) (vals : List EV) : Prop := Ordered u ∧ ∀ v ∈ vals, v.ty = .null ∨ (v.ty = u ∧ NotNaN v)

/-- No NULL among the values. -/
def NoNull (vals : List EV) : Prop := ∀ v ∈ vals, v.ty ≠ .null

/-- On the row `r` the condition `e` has the truth value `b` (`none`: unknown). -/
def Means (E : Pred.Env) (r : Pred.Row) (e : Pred.PE) (b : Option Bool) : Prop :=
  (Pred.eval E r (Pred.prepare E e)).isNull = b.isNone ∧
  ∀ c, b = some c → Pred.truth E (Pred.eval E r (Pred.prepare E e)) = c

/-- With the condition `e` in WHERE the row `r` is returned exactly if the truth value `b` is true. -/
def Selects (E : Pred.Env) (r : Pred.Row) (e : Pred.PE) (b : Option Bool) : Prop :=
  Pred.keep E r [Pred.prepare E e] = true ↔ b = some true

end BaikalDB.Subq.Spec
