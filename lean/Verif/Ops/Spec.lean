import Verif.Ops.Model
import Verif.Expr.Spec
/-!
# What operators must compute

SQL arithmetic on mathematical integers.  Nothing here mentions which machine type an operator works on or how constants
are folded.
-/
namespace BaikalDB.Ops.Spec
open BaikalDB.Expr BaikalDB.Ops

/-- The integer a value stands for; `none` for NULL. -/
def intOf (v : EV) : Option Int :=
  match Expr.Spec.sem v with
  | some (.num x) => some x
  | _ => none

/-- Result of an operator on two integers; `none` is NULL.  `/` is not among them: its result is not an integer. -/
def intOp (op : BOp) (x y : Int) : Option Int :=
  match op with
  | .add => some (x + y)
  | .minus => some (x - y)
  | .mul => some (x * y)
  | .mod => if y = 0 then none else some (x.tmod y)
  | .band => some (x.toNat &&& y.toNat : Nat)
  | .bor => some (x.toNat ||| y.toNat : Nat)
  | .bxor => some (x.toNat ^^^ y.toNat : Nat)
  | .ls => some (x * 2 ^ y.toNat % 2 ^ 64)
  | .rs => some (x / 2 ^ y.toNat)
  | _ => none

/-- Result of an operator on one integer: unary minus, and `~` on 64 bits. -/
def intUn (op : UOp) (x : Int) : Int :=
  match op with
  | .neg => - x
  | .bnot => 2 ^ 64 - 1 - x

/-- The value of an arithmetic expression on a row: NULL as soon as an operand is NULL. -/
def value (row : Nat → EV) : Node → Option Int
  | .lit v => intOf v
  | .slot i _ => intOf (row i)
  | .un op a => (value row a).map (intUn op)
  | .bin op a b => (value row a).bind fun x => (value row b).bind fun y => intOp op x y

/-- Bit operators, whose operands and results are unsigned. -/
def IsBit (op : BOp) : Prop := op ∈ [BOp.band, .bor, .bxor, .ls, .rs]
/-- `+ - * %`. -/
def IsArith (op : BOp) : Prop := op ∈ [BOp.add, .minus, .mul, .mod]
/-- Comparisons. -/
def IsCmp (op : BOp) : Prop := op ∈ [BOp.eq, .ne, .gt, .ge, .lt, .le]

instance (op : BOp) : Decidable (IsBit op) := inferInstanceAs (Decidable (_ ∈ _))
instance (op : BOp) : Decidable (IsArith op) := inferInstanceAs (Decidable (_ ∈ _))
instance (op : BOp) : Decidable (IsCmp op) := inferInstanceAs (Decidable (_ ∈ _))

/-- Unsigned column types. -/
def UnsignedTy (t : VTy) : Bool := t ∈ [VTy.uint8, .uint16, .uint32, .uint64]

/-- An expression is unsigned when an unsigned column or literal or a bit operator occurs in it. -/
def Unsigned : Node → Bool
  | .lit v => UnsignedTy v.ty
  | .slot _ t => UnsignedTy t
  | .un .bnot _ => true
  | .un .neg a => Unsigned a
  | .bin op a b => decide (IsBit op) || Unsigned a || Unsigned b

/-- Signed and unsigned 64-bit range. -/
def InRange (u : Bool) (x : Int) : Prop := if u then 0 ≤ x ∧ x < 2 ^ 64 else -2 ^ 63 ≤ x ∧ x < 2 ^ 63

/-- Integer expression over the columns of a row: integer columns holding values of their type, integer literals, NULL,
`+ - * %`, unary minus and the bit operators. -/
def IntExpr (row : Nat → EV) : Node → Prop
  | .lit v => Expr.Spec.IntTy v.ty ∨ v.ty = .null
  | .slot i t => Expr.Spec.IntTy t ∧ ((row i).ty = t ∨ (row i).ty = .null)
  | .un _ a => IntExpr row a
  | .bin op a b => (IsArith op ∨ IsBit op) ∧ IntExpr row a ∧ IntExpr row b

/-- The operands are ones `op` is meant for: bit operators take numbers that are not negative and shift by less than
64; `%` over unsigned numbers takes no negative ones, and over signed ones the quotient fits 64 bits. -/
def Takes (op : BOp) (u : Bool) (x y : Int) : Prop :=
  match op with
  | .band | .bor | .bxor => 0 ≤ x ∧ 0 ≤ y
  | .ls | .rs => 0 ≤ x ∧ 0 ≤ y ∧ y < 64
  | .mod => if u then 0 ≤ x ∧ 0 ≤ y else y ≠ 0 → x.tdiv y < 2 ^ 63
  | _ => True

/-- Every intermediate result is in the 64-bit range of its kind, and every operator gets operands it is meant for. -/
def Within (row : Nat → EV) : Node → Prop
  | .lit _ | .slot _ _ => True
  | .un op a => Within row a ∧ ∀ x, value row a = some x →
      (op = .bnot → 0 ≤ x) ∧ InRange (Unsigned (.un op a)) (intUn op x)
  | .bin op a b => Within row a ∧ Within row b ∧ ∀ x y, value row a = some x → value row b = some y →
      Takes op (Unsigned (.bin op a b)) x y ∧ ∀ z, intOp op x y = some z → InRange (Unsigned (.bin op a b)) z

/-- Truth of a comparison of integers. -/
def Cmp (op : BOp) (x y : Int) : Prop :=
  match op with
  | .eq => x = y
  | .ne => x ≠ y
  | .gt => x > y
  | .ge => x ≥ y
  | .lt => x < y
  | .le => x ≤ y
  | _ => False

/-- `v` is the SQL truth value of `p`. -/
def IsBool (v : EV) (p : Prop) : Prop := v.ty = .bool ∧ (p → intOf v = some 1) ∧ (¬ p → intOf v = some 0)

/-- `v` is the number `r`, or NULL when there is none. -/
def Is (v : EV) (r : Option Int) : Prop := r.elim (v.ty = .null) fun x => intOf v = some x

/-- Expression without columns. -/
def Constant : Node → Prop
  | .lit _ => True
  | .slot _ _ => False
  | .un _ a => Constant a
  | .bin _ a b => Constant a ∧ Constant b

/-- A comparison is unsigned when one side is, except that next to a column a constant does not count. -/
inductive CmpKind : Node → Node → Bool → Prop
  | colConst (i t c) : Constant c → CmpKind (.slot i t) c (UnsignedTy t)
  | constCol (i t c) : Constant c → CmpKind c (.slot i t) (UnsignedTy t)
  | other (a b) : (∀ i t, a = .slot i t → ¬ Constant b) → (∀ i t, b = .slot i t → ¬ Constant a) →
      CmpKind a b (Unsigned a || Unsigned b)

/-- Lexicographic order of rows. -/
def lex (cmp : EV → EV → Ordering) : List EV → List EV → Ordering
  | a :: as, b :: bs => (cmp a b).then (lex cmp as bs)
  | _, _ => .eq

/-- Truth of a comparison, given how the two sides are ordered. -/
def CmpOrd (op : BOp) (o : Ordering) : Prop :=
  match op with
  | .eq => o = .eq
  | .ne => o ≠ .eq
  | .gt => o = .gt
  | .ge => o ≠ .lt
  | .lt => o = .lt
  | .le => o ≠ .gt
  | _ => False

/-- Both not NULL and of types that are compared by value: two integers none of which is a negative number next to an
unsigned one, or two texts. -/
def Comparable (a b : EV) : Prop :=
  (∃ x y, Expr.Spec.IntTy a.ty ∧ Expr.Spec.IntTy b.ty ∧ intOf a = some x ∧ intOf b = some y ∧
    ((UnsignedTy a.ty = false ∧ UnsignedTy b.ty = false) ∨ (0 ≤ x ∧ 0 ≤ y))) ∨
  (a.ty = .string ∧ b.ty = .string)

/-- SQL order of two such values. -/
def valCmp (a b : EV) : Ordering :=
  match intOf a, intOf b with
  | some x, some y => Ord.compare x y
  | _, _ => bcmp a.s b.s

end BaikalDB.Ops.Spec
