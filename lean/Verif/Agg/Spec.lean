import Verif.Agg.Model
import Mathlib.Data.List.Perm.Basic
import Mathlib.Tactic.Common

/-!
# What the aggregates mean

The value SQL gives an aggregate over the rows of a group, said of the bag of rows alone.
-/

namespace BaikalDB.Agg.Spec

variable {ρ V D O : Type}

/-- The first argument of a row if it is an ordinary value, a bitmap; the concatenated arguments unless all are NULL. -/
def scalar (c : Call ρ V O) (r : ρ) : Option V :=
  match c.args with | a :: _ => (a r).val? | [] => none

def bitmap (c : Call ρ V O) (r : ρ) : Option Nat :=
  match c.args with | a :: _ => (a r).bits? | [] => none

open Classical in
noncomputable def text (e : Env V D O) (c : Call ρ V O) (r : ρ) : Option Bytes :=
  if (∃ a ∈ c.args, (a r).val?.isSome) then
    some (c.args.flatMap fun a => ((a r).val?.map e.toStr).getD [])
  else none

/-- `COUNT(a, b, …)` counts the rows with no NULL among the arguments. -/
def counted (c : Call ρ V O) (r : ρ) : Prop := ∀ a ∈ c.args, a r ≠ .null

/-- `S` has one value for each of the distinct values in `vs`. -/
def Distinct (cmp : V → V → Int) (S vs : List V) : Prop :=
  (∀ s ∈ S, s ∈ vs) ∧ S.Pairwise (fun a b => cmp a b ≠ 0) ∧ ∀ v ∈ vs, ∃ s ∈ S, cmp s v = 0

/-- The values of DISTINCT aggregates whose sets travel between nodes. -/
noncomputable def member (e : Env V D O) (c : Call ρ V O) (r : ρ) : Option V :=
  if c.kind = .multiConcat then (text e c r).map e.ofStr else scalar c r

/-- `x₁ + (x₂ + …)`. -/
def total (e : Env V D O) (xs : List D) : D := xs.foldr e.add e.zero

/-- Lexicographic by length, then bytes, ascending. -/
def textLt (a b : Bytes) : Prop := a.length < b.length ∨ a.length = b.length ∧ BLt a b

open Classical in
/-- `f` is the value of the aggregate `c` over the rows `R`. -/
def Answer (e : Env V D O) (le : O → O → Prop) (c : Call ρ V O) (R : List ρ) (f : Slot V D) : Prop :=
  match c.kind with
  | .countStar => f = .int (BitVec.ofNat 64 R.length)
  | .count => f = .int (BitVec.ofNat 64 (R.filter (fun r => decide (counted c r))).length)
  | .sum => if R.filterMap (scalar c) = [] then f = .null else f = .int ((R.filterMap (scalar c)).map e.toInt).sum
  | .sumDbl => if R.filterMap (scalar c) = [] then f = .null else f = .dbl (total e ((R.filterMap (scalar c)).map e.toDbl))
  | .avg =>
    if R.filterMap (scalar c) = [] then f = .null
    else f = .dbl (e.div (total e ((R.filterMap (scalar c)).map e.toDbl)) (BitVec.ofNat 64 (R.filterMap (scalar c)).length))
  | .min =>
    if R.filterMap (scalar c) = [] then f = .null
    else ∃ v ∈ R.filterMap (scalar c), f = .sc v ∧ ∀ w ∈ R.filterMap (scalar c), e.cmp v w ≤ 0
  | .max =>
    if R.filterMap (scalar c) = [] then f = .null
    else ∃ v ∈ R.filterMap (scalar c), f = .sc v ∧ ∀ w ∈ R.filterMap (scalar c), e.cmp w v ≤ 0
  | .rbOr => if R = [] then f = .null else ∃ b, f = .bm b ∧ ∀ i, b.testBit i = true ↔ ∃ x ∈ R.filterMap (bitmap c), x.testBit i = true
  | .rbAnd =>
    if R.filterMap (bitmap c) = [] then f = .null
    else ∃ b, f = .bm b ∧ ∀ i, b.testBit i = true ↔ ∀ x ∈ R.filterMap (bitmap c), x.testBit i = true
  | .rbXor =>
    if R = [] then f = .null
    else ∃ b, f = .bm b ∧ ∀ i, b.testBit i = true ↔ ((R.filterMap (bitmap c)).filter (·.testBit i)).length % 2 = 1
  | .rbBuild =>
    if R = [] then f = .null else ∃ b, f = .bm b ∧ ∀ i, b.testBit i = true ↔ ∃ v ∈ R.filterMap (scalar c), e.toU32 v = i
  | .concat =>
    if R.filterMap (text e c) = [] then f = .null
    else
      ∃ L : List ρ, L.Perm R ∧ f = .str (c.sep.intercalate (L.filterMap (text e c))) ∧
        ∀ o, c.order = some o → (L.filter (fun r => (text e c r).isSome)).Pairwise (fun a b => le (o a) (o b))
  | .multiCount => ∃ S, Distinct e.cmp S (R.filterMap (member e c)) ∧ f = .int (BitVec.ofNat 64 S.length)
  | .multiSum =>
    if R.filterMap (member e c) = [] then f = .null
    else ∃ S, Distinct e.cmp S (R.filterMap (member e c)) ∧ f = .int (S.map e.toInt).sum
  | .multiSumDbl =>
    if R.filterMap (member e c) = [] then f = .null
    else ∃ S, Distinct e.cmp S (R.filterMap (member e c)) ∧ f = .dbl (total e (S.map e.toDbl))
  | .multiConcat =>
    if R.filterMap (member e c) = [] then f = .null
    else
      ∃ T : List Bytes, (∀ t, t ∈ T ↔ t ∈ R.filterMap (text e c)) ∧
        T.Pairwise (fun a b => if c.asc then textLt a b else textLt b a) ∧ f = .str (c.sep.intercalate T)
  | .absent => True

end BaikalDB.Agg.Spec
