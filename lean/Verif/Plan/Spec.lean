import Verif.Plan.Model

/-!
# When the rewriting of joins may be relied on

Nothing here is used by the planner: these are the assumptions of the theorems.
-/

namespace BaikalDB.Plan

/-- Not TRUE on a row all NULL in the tuples `T`. -/
def Rejects (F : Fns) (T : List Nat) (e : Expr) : Prop := ∀ r : Row, (∀ t ∈ T, ∀ s, r t s = none) → holds F r e = false

/-- The planner takes it that a condition without one of five functions is not TRUE when all its columns are NULL, and
without OR also when all columns of one of its tables are NULL.  Conditions for which that is so: -/
structure Honest (F : Fns) (e : Expr) : Prop where
  all : tupsE e ≠ [] → hasNullFn e = false → ∀ T, within T e = true → Rejects F T e
  one : hasNullFn e = false → hasOr e = false → ∀ T, (∃ t ∈ tupsE e, t ∈ T) → Rejects F T e

/-- The condition alone makes an outer join of the plan another kind of join.  Conditions do not go through filters. -/
def uses (e : Expr) : Tree → Bool
  | .scan _ | .filter _ _ => false
  | .join ty _ l r => decide (newType [e] (tups l) (tups r) ty ≠ ty) || uses e l || uses e r

def noFull : Tree → Bool
  | .scan _ => true
  | .filter _ p => noFull p
  | .join ty _ l r => decide (ty ≠ .full) && noFull l && noFull r

def conds : Tree → List Expr
  | .scan _ => []
  | .filter cs p => cs ++ conds p
  | .join _ cs l r => cs ++ conds l ++ conds r

/-- No condition on a column of an enclosing query stands right above an outer join. -/
def CorrOk (es : List Expr) : Tree → Prop
  | .scan _ => True
  | .filter _ p => CorrOk es p
  | .join ty _ l r => ty = .inner ∨ ∀ e ∈ es, foreign (tups l ++ tups r) e = false

/-- A table occurs once; the ON conditions of an outer join do not change joins on the side it preserves; no condition on a
column of an enclosing query stands right above an outer join. -/
def Wf : Tree → Prop
  | .scan _ => True
  | .filter cs p => Wf p ∧ CorrOk cs p
  | .join ty cs l r => Wf l ∧ Wf r ∧ (∀ t ∈ tups l, t ∉ tups r) ∧
      (ty = .left ∨ ty = .full → ∀ e ∈ cs, uses e l = false) ∧ (ty = .right ∨ ty = .full → ∀ e ∈ cs, uses e r = false)

/-- `nf`: there is no FULL JOIN.  With one, a constant condition must not do harm either. -/
structure Fit (F : Fns) (nf : Bool) (e : Expr) : Prop where
  honest : Honest F e
  const : nf = true ∨ tupsE e ≠ [] ∨ hasNullFn e = true

def allInner : Tree → Bool
  | .scan _ => true
  | .filter _ p => allInner p
  | .join ty _ l r => decide (ty = .inner) && allInner l && allInner r

/-! ## Conditions of which the planner's rule is true

Comparisons and other functions that are NULL when an argument is, combined by AND, OR, XOR, NOT, IN. -/

/-- `S` names functions that are NULL when an argument is NULL. -/
def StrictFns (F : Fns) (S : String → Bool) : Prop := ∀ f, S f = true → ∀ as, none ∈ as → F f as = none

mutual
/-- NULL as soon as the columns of one of its tables are NULL. -/
def strict (S : String → Bool) : Expr → Bool
  | .slot _ _ | .lit _ => true
  | .call f as => S f && stricts S as
  | .inList x _ => strict S x
  | .and _ _ | .or _ _ | .isNull _ | .isTrue _ => false
  | .xor a b => strict S a && strict S b
  | .not a => strict S a
def stricts (S : String → Bool) : List Expr → Bool
  | [] => true
  | a :: as => strict S a && stricts S as
end

def sameTups (a b : Expr) : Bool := within (tupsE a) b && within (tupsE b) a

/-- Not TRUE (`b`), not FALSE (`!b`) when the columns of one of its tables are NULL. -/
def one (S : String → Bool) : Bool → Expr → Bool
  | _, .slot _ _ | _, .lit _ => true
  | _, .call f as => strict S (.call f as)
  | _, .inList x vs => strict S (.inList x vs)
  | b, .and x y => one S b x && one S b y && (b || sameTups x y)
  | b, .or x y => one S b x && one S b y && (!b || sameTups x y)
  | _, .xor x y => strict S (.xor x y)
  | b, .not x => one S (!b) x
  | _, .isNull _ | _, .isTrue _ => false

/-- Not TRUE (`b`), not FALSE (`!b`) when all its columns are NULL and there is one. -/
def every (S : String → Bool) : Bool → Expr → Bool
  | _, .slot _ _ | _, .lit _ => true
  | _, .call f as => strict S (.call f as)
  | _, .inList x vs => strict S (.inList x vs)
  | b, .and x y => every S b x && every S b y && (b || (!(tupsE x).isEmpty && !(tupsE y).isEmpty))
  | b, .or x y => every S b x && every S b y && (!b || (!(tupsE x).isEmpty && !(tupsE y).isEmpty))
  | _, .xor x y => strict S (.xor x y)
  | b, .not x => every S (!b) x
  | _, .isNull _ | _, .isTrue _ => false

mutual
/-- Some part of the expression is of kind `f`. -/
def anyPart (f : Expr → Bool) : Expr → Bool
  | .slot t s => f (.slot t s)
  | .lit v => f (.lit v)
  | .call g as => f (.call g as) || anyParts f as
  | .inList x vs => f (.inList x vs) || anyPart f x
  | .and a b => f (.and a b) || anyPart f a || anyPart f b
  | .or a b => f (.or a b) || anyPart f a || anyPart f b
  | .xor a b => f (.xor a b) || anyPart f a || anyPart f b
  | .not a => f (.not a) || anyPart f a
  | .isNull a => f (.isNull a) || anyPart f a
  | .isTrue a => f (.isTrue a) || anyPart f a
def anyParts (f : Expr → Bool) : List Expr → Bool
  | [] => false
  | a :: as => anyPart f a || anyParts f as
end

/-- IFNULL, ISNULL, IF, CASE, IS NULL -/
def takesNull : Expr → Bool
  | .call g _ => g == "ifnull" || g == "isnull" || g == "if" || g == "case_when" || g == "case_expr_when"
  | .isNull _ => true
  | _ => false

def isOr : Expr → Bool
  | .or _ _ => true
  | _ => false

def plain (S : String → Bool) (e : Expr) : Bool :=
  anyPart takesNull e || (every S true e && (anyPart isOr e || one S true e))

end BaikalDB.Plan
