import Verif.Expr.Spec
import Verif.Like.Spec
import Verif.Pred.Model
/-!
# What WHERE conditions mean

SQL's three-valued logic over mathematical values.  `denote` reads a condition of the plan as such a condition, refusing
the operand combinations on which the code is known to deviate (`comparable`, `listable`); nothing here mentions how
conditions are typed, folded or evaluated.
-/
namespace BaikalDB.Pred.Spec
open BaikalDB.Expr (VTy EV)
open BaikalDB.Expr.Spec

/-- A constant (`none`: NULL) or a column. -/
inductive Term where
  | const (v : Option SVal)
  | col (i : Nat)

/-- Conditions. -/
inductive Cond where
  | term (t : Term)
  | cmp (op : Op) (a b : Term)
  | and (cs : List Cond)
  | or (cs : List Cond)
  | xor (a b : Cond)
  | not (a : Cond)
  | termIsNull (t : Term)
  | isNull (a : Cond)
  | isTrue (a : Cond)
  | isIn (t : Term) (items : List (Option SVal))
  | like (cs : Like.Charset) (t : Term) (pat : Bytes)

/-- Truth of "x op y". -/
def rel : Op → SVal → SVal → Bool
  | .eq, x, y => decide (x = y)
  | .ne, x, y => decide (x ≠ y)
  | .lt, x, y => decide (x.cmp y = .lt)
  | .le, x, y => decide (x.cmp y = .lt ∨ x = y)
  | .gt, x, y => decide (y.cmp x = .lt)
  | .ge, x, y => decide (y.cmp x = .lt ∨ x = y)

/-- Three-valued connectives (`none`: unknown). -/
def not3 : Option Bool → Option Bool
  | some b => some (!b)
  | none => none
def and3 : Option Bool → Option Bool → Option Bool
  | some false, _ => some false
  | _, some false => some false
  | some true, some true => some true
  | _, _ => none
def or3 (x y : Option Bool) : Option Bool := not3 (and3 (not3 x) (not3 y))
def xor3 : Option Bool → Option Bool → Option Bool
  | some a, some b => some (a != b)
  | _, _ => none

/-- A comparison with NULL is unknown. -/
def cmp3 (op : Op) : Option SVal → Option SVal → Option Bool
  | some x, some y => some (rel op x y)
  | _, _ => none

/-- A row: the values of the columns. -/
abbrev SRow := Nat → Option SVal

def Term.val (r : SRow) : Term → Option SVal
  | .const v => v
  | .col i => r i

/-- A number as a condition: true unless zero. -/
def asBool : Option SVal → Option Bool
  | some (.num x) => some (decide (x ≠ 0))
  | some (.str _) => some false
  | none => none

/-- The text of a value, for LIKE. -/
def likeVal (m : Like.Charset → Bytes → Bytes → Bool) (cs : Like.Charset) (pat : Bytes) : Option SVal → Option Bool
  | some (.str s) => some (m cs s pat)
  | some (.num _) => some false
  | none => none

mutual
/-- The truth value of a condition on a row; `m` is the meaning of LIKE on text (see `Like.C26_like`).  IN is a chain of
ORs of equalities. -/
def Cond.val (m : Like.Charset → Bytes → Bytes → Bool) (r : SRow) : Cond → Option Bool
  | .term t => asBool (t.val r)
  | .cmp op a b => cmp3 op (a.val r) (b.val r)
  | .and cs => (Cond.vals m r cs).foldr and3 (some true)
  | .or cs => (Cond.vals m r cs).foldr or3 (some false)
  | .xor a b => xor3 (a.val m r) (b.val m r)
  | .not a => not3 (a.val m r)
  | .termIsNull t => some (t.val r).isNone
  | .isNull a => some (a.val m r).isNone
  | .isTrue a => some (a.val m r == some true)
  | .isIn t items => (items.map fun v => cmp3 .eq (t.val r) v).foldr or3 (some false)
  | .like cs t pat => likeVal m cs pat (t.val r)
def Cond.vals (m : Like.Charset → Bytes → Bytes → Bool) (r : SRow) : List Cond → List (Option Bool)
  | [] => []
  | c :: cs => c.val m r :: Cond.vals m r cs
end

/-! ## The conditions covered -/

/-- A table: type of each column, and whether it may be NULL. -/
abbrev Schema := Nat → VTy × Bool

/-- Rows of the table: NULL only where allowed, otherwise a value of the column's type, not NaN. -/
def RowOk (S : Schema) (r : Row) : Prop :=
  ∀ i, ((r i).ty = .null ∧ (S i).2 = true) ∨ ((r i).ty = (S i).1 ∧ NotNaN (r i))

/-- Types compared without any conversion. -/
def Direct (t : VTy) : Prop := t ∈ [VTy.string, .datetime, .timestamp, .date, .time, .double]
instance (t : VTy) : Decidable (Direct t) := inferInstanceAs (Decidable (_ ∈ _))
instance (t : VTy) : Decidable (IntTy t) := inferInstanceAs (Decidable (_ ∈ _))
instance (v : EV) : Decidable (NotNaN v) := inferInstanceAs (Decidable (_ ∧ _))
instance (t : VTy) (x : Int) : Decidable (Fits t x) := inferInstanceAs (Decidable (_ ∧ _))

/-- The number behind an integer value. -/
def numOf (v : EV) : Int := match sem v with | some (.num x) => x | _ => 0

/-- A literal value an integer column of type `t`, or a column of one of the direct types, can be compared with. -/
def litOk (t : VTy) (v : EV) : Prop :=
  v.ty = .null ∨
  (IntTy t ∧ IntTy v.ty ∧ (if t.isUint then 0 ≤ numOf v else Fits .int64 (numOf v))) ∨
  (Direct t ∧ v.ty = t ∧ NotNaN v)
instance (t : VTy) (v : EV) : Decidable (litOk t v) := inferInstanceAs (Decidable (_ ∨ _ ∨ _))

/-- Operand pairs of comparisons: column and literal (in either order), two columns, two literals; always within the
integers (not mixing a signed column with an unsigned one, nor a negative literal with an unsigned type) or within one of
the direct types. -/
def comparable : PE → PE → Prop
  | .slot _ t, .lit l => litOk t l.v
  | .lit l, .slot _ t => litOk t l.v
  | .slot _ t, .slot _ u => (IntTy t ∧ IntTy u ∧ t.isUint = u.isUint) ∨ (Direct t ∧ t = u)
  | .lit l, .lit k => l.v.ty = .null ∨ k.v.ty = .null ∨
      (IntTy l.v.ty ∧ IntTy k.v.ty ∧ ((l.v.ty.isUint = false ∧ k.v.ty.isUint = false) ∨ (0 ≤ numOf l.v ∧ 0 ≤ numOf k.v))) ∨
      (Direct l.v.ty ∧ k.v.ty = l.v.ty ∧ NotNaN l.v ∧ NotNaN k.v)
  | _, _ => False
instance : (a b : PE) → Decidable (comparable a b) := fun a b => by
  cases a <;> cases b <;> simp only [comparable] <;> infer_instance

/-- Literals allowed in the list of `column IN (...)`: NULL, or values of the column's type. -/
def listable (t : VTy) (v : EV) : Prop :=
  v.ty = .null ∨ (IntTy t ∧ IntTy v.ty ∧ Fits t (numOf v)) ∨ (Direct t ∧ v.ty = t ∧ NotNaN v)
instance (t : VTy) (v : EV) : Decidable (listable t v) := inferInstanceAs (Decidable (_ ∨ _ ∨ _))

/-- Column and literal operands. -/
def term (S : Schema) : PE → Option Term
  | .lit l => if l.ty = l.v.ty ∧ (l.v.ty = .null ∨ Ordered l.v.ty) then some (.const (sem l.v)) else none
  | .slot i t => if t = (S i).1 ∧ Ordered t then some (.col i) else none
  | _ => none

/-- Operands that can stand as a condition: integers and booleans. -/
def condTerm : PE → Prop
  | .lit l => l.v.ty = .null ∨ l.v.ty = .bool ∨ IntTy l.v.ty
  | .slot _ t => t = .bool ∨ IntTy t
  | _ => False
instance : (a : PE) → Decidable (condTerm a) := fun a => by
  cases a <;> simp only [condTerm] <;> infer_instance

mutual
/-- The SQL condition a plan condition stands for, as the parser hands it over (no type chosen yet, no NULL flag). -/
def denote (S : Schema) : PE → Option Cond
  | .lit l => if condTerm (.lit l) then (term S (.lit l)).map .term else none
  | .slot i t => if condTerm (.slot i t) then (term S (.slot i t)).map .term else none
  | .cmp op _ a b =>
    if comparable a b then
      match term S a, term S b with
      | some x, some y => some (.cmp op x y)
      | _, _ => none
    else none
  | .and cs => (denoteAll S cs).map .and
  | .or cs => (denoteAll S cs).map .or
  | .xor a b =>
    match denote S a, denote S b with
    | some x, some y => some (.xor x y)
    | _, _ => none
  | .not a => (denote S a).map .not
  | .isNull a =>
    match term S a with
    | some t => some (.termIsNull t)
    | none => (denote S a).map .isNull
  | .isTrue a => (denote S a).map .isTrue
  | .isIn a items h =>
    match a with
    | .slot i t =>
      if t = (S i).1 ∧ Ordered t ∧ h = false ∧ items ≠ [] ∧ ∀ l ∈ items, listable t l.v then
        some (.isIn (.col i) (items.map fun l => sem l.v))
      else none
    | _ => none
  | .like cs a pat =>
    match a with
    | .slot i t => if t = (S i).1 ∧ t = .string ∧ (S i).2 = false then some (.like cs (.col i) pat) else none
    | _ => none
def denoteAll (S : Schema) : List PE → Option (List Cond)
  | [] => some []
  | c :: cs =>
    match denote S c, denoteAll S cs with
    | some x, some xs => some (x :: xs)
    | _, _ => none
end

/-- The row behind a stored row. -/
def rowOf (r : Row) : SRow := fun i => sem (r i)

/-! ## Conditions evaluated by the storage nodes -/

mutual
/-- Every IN below is a column in a list without NULL. -/
def nullFreeIn : PE → Bool
  | .lit _ => true
  | .slot _ _ => true
  | .cmp _ _ a b => nullFreeIn a && nullFreeIn b
  | .and cs => nullFreeInAll cs
  | .or cs => nullFreeInAll cs
  | .xor a b => nullFreeIn a && nullFreeIn b
  | .not a => nullFreeIn a
  | .isNull a => nullFreeIn a
  | .isTrue a => nullFreeIn a
  | .isIn a items h => a.isSlot && !h && items.all fun l => !l.v.isNull
  | .like _ a _ => nullFreeIn a
def nullFreeInAll : List PE → Bool
  | [] => true
  | c :: cs => nullFreeIn c && nullFreeInAll cs
end

mutual
/-- An IN whose list has a NULL occurs below AND, OR and IS TRUE only, where unknown and false do not differ. -/
def nullInPositive : PE → Bool
  | .and cs => nullInPositiveAll cs
  | .or cs => nullInPositiveAll cs
  | .isTrue a => nullInPositive a
  | .isIn a _ _ => a.isSlot
  | e => nullFreeIn e
def nullInPositiveAll : List PE → Bool
  | [] => true
  | c :: cs => nullInPositive c && nullInPositiveAll cs
end

/-! ## Conditions combined with each other -/

/-- A non-NULL literal compared with a column. -/
def plainCmp (S : Schema) (i : Nat) (t : VTy) (l : Lit) : Prop :=
  t = (S i).1 ∧ l.ty = l.v.ty ∧ l.v.ty ≠ .null ∧ litOk t l.v

/-- Types whose IN lists are compared by their text. -/
def textual (t : VTy) : Prop := IntTy t ∨ t = .string

/-- Alternatives of an OR: `column = literal` must be over an integer or string column, as it may become an IN. -/
def plainAlt (S : Schema) : PE → Prop
  | .cmp .eq _ (.slot i t) (.lit l) => plainCmp S i t l ∧ textual t
  | .cmp .eq _ (.lit l) (.slot i t) => plainCmp S i t l ∧ textual t
  | .cmp .eq _ (.slot _ _) (.slot _ _) => True
  | .cmp .eq _ a b => a.isSlot = false ∧ b.isSlot = false
  | _ => True

/-- The conditions between which simplification may draw conclusions: a column against a non-NULL literal, a column in a
list without NULL, an OR of such equalities, a LIKE without escaped `%` at its end.  Every other condition is allowed
as it is. -/
def plain (S : Schema) : PE → Prop
  | .cmp _ _ (.slot i t) (.lit l) => plainCmp S i t l
  | .cmp _ _ (.lit l) (.slot i t) => plainCmp S i t l
  | .cmp _ _ (.slot _ _) (.slot _ _) => True
  | .cmp _ _ a b => a.isSlot = false ∧ b.isSlot = false
  | .isIn (.slot i t) items _ => t = (S i).1 ∧ textual t ∧ items ≠ [] ∧ ∀ l ∈ items, l.v.ty ≠ .null ∧ listable t l.v
  | .or cs => ∀ c ∈ cs, plainAlt S c
  | .like cs (.slot i t) pat => t = (S i).1 ∧ (S i).2 = false ∧ cs ≠ .gbk ∧ (∃ P, Like.Spec.Text cs pat P) ∧
      pat.head? ≠ some 0xFF#8 ∧ ¬ ∃ a, pat = a ++ [0x5c#8, 0x25#8]
  | _ => True

/-- The strings a LIKE looks at are well formed in its charset. -/
def textOk (r : Row) : PE → Prop
  | .like cs (.slot i _) _ => ∃ T, Like.Spec.Text cs (r i).s T
  | _ => True

end BaikalDB.Pred.Spec
