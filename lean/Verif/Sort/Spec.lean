import Verif.Sort.Model
import Verif.Expr.Spec
/-! # What ORDER BY means -/
namespace BaikalDB.Sort
open Expr Expr.Spec

/-- What a column holds: NULL or a value. -/
def colVal (v : EV) : Option SVal := if v.isNull then none else sem v

/-- Order of one column: values ascending or descending, NULLs before or after all values. -/
def colOrd (asc nullFirst : Bool) : Option SVal → Option SVal → Ordering
  | none, none => .eq
  | none, some _ => if nullFirst then .lt else .gt
  | some _, none => if nullFirst then .gt else .lt
  | some x, some y => if asc then x.cmp y else y.cmp x

/-- Order of rows: by the first column, then by the second, ... -/
def rowOrd {ρ : Type} : List (Key ρ) → ρ → ρ → Ordering
  | [], _, _ => .eq
  | k :: ks, a, b => (colOrd k.asc k.nullFirst (colVal (k.val a)) (colVal (k.val b))).then (rowOrd ks a b)

/-- `a` may come before `b`. -/
def RowLe {ρ : Type} (ks : List (Key ρ)) (a b : ρ) : Prop := rowOrd ks a b ≠ .gt

instance {ρ : Type} (ks : List (Key ρ)) (a b : ρ) : Decidable (RowLe ks a b) := by unfold RowLe; infer_instance

/-- The row's order-by columns hold NULL or a value of the column's type; floating point columns hold no NaN. -/
def RowOK {ρ : Type} (ty : Key ρ → VTy) (ks : List (Key ρ)) (r : ρ) : Prop :=
  ∀ k ∈ ks, Ordered (ty k) ∧ ((k.val r).isNull = true ∨ ((k.val r).ty = ty k ∧ NotNaN (k.val r)))

/-- `srt` does what `std::sort` promises for the comparison `less`, provided `less` is a strict weak order on the elements. -/
def IsSort {α : Type} (less : α → α → Bool) (srt : List α → List α) : Prop :=
  ∀ l, (∀ x ∈ l, ∀ y ∈ l, less x y = true → less y x = false) →
    (∀ x ∈ l, ∀ y ∈ l, ∀ z ∈ l, less y x = false → less z y = false → less z x = false) →
    (srt l).Perm l ∧ (srt l).Pairwise fun a b => less b a = false

/-- The sort every ORDER BY result is measured against: stable, by the ORDER BY order. -/
def orderBy {ρ : Type} (ks : List (Key ρ)) (l : List ρ) : List ρ := l.mergeSort fun a b => decide (RowLe ks a b)

/-- What `LIMIT offset, limit` keeps. -/
def window {ρ : Type} (offset : Nat) (limit : Option Nat) (l : List ρ) : List ρ :=
  match limit with
  | none => l.drop offset
  | some n => (l.drop offset).take n

end BaikalDB.Sort
