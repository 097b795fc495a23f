import Verif.Window.Model
import Verif.Sort.Spec
import Verif.Pred.Spec

/-!
# What window functions mean

A partition is the list of its rows in the window's order.  The frame of a row is the list of the rows of the partition that
the frame clause admits, in order.  Every function has a value for each row, given by the partition, the row's position and
its frame.
-/

namespace BaikalDB.Window.Spec
open Expr (EV VTy)
open Expr.Spec
open BaikalDB.Pred.Spec (Direct)
open BaikalDB.Sort (Key rowOrd RowLe RowOK colVal)

variable {ρ : Type}

/-! ## Partitions and frames -/

/-- `r` and `r'` agree on the items of PARTITION BY (NULL is one value). -/
def samePart (part : List (ρ → EV)) (r r' : ρ) : Bool := part.all fun a => decide (colVal (a r) = colVal (a r'))

/-- One end of a frame. -/
inductive Edge where
  | unboundedPreceding
  | preceding (n : Int)
  | current
  | following (n : Int)
  | unboundedFollowing
  deriving DecidableEq, Repr

/-- `ROWS`: the row at `j` is not before the lower end, not after the upper end, for the row at `i`. -/
def Edge.rowsFrom (i j : Int) : Edge → Bool
  | .unboundedPreceding => true
  | .preceding n => decide (i - n ≤ j)
  | .current => decide (i ≤ j)
  | .following n => decide (i + n ≤ j)
  | .unboundedFollowing => false
def Edge.rowsUpto (i j : Int) : Edge → Bool
  | .unboundedPreceding => false
  | .preceding n => decide (j ≤ i - n)
  | .current => decide (j ≤ i)
  | .following n => decide (j ≤ i + n)
  | .unboundedFollowing => true

/-- `RANGE`: the current row's end takes in all rows equal to it.  (`RANGE n PRECEDING` does not exist.) -/
def Edge.rangeFrom (ks : List (Key ρ)) (x y : ρ) : Edge → Bool
  | .unboundedPreceding => true
  | .current => decide (RowLe ks x y)
  | _ => false
def Edge.rangeUpto (ks : List (Key ρ)) (x y : ρ) : Edge → Bool
  | .unboundedFollowing => true
  | .current => decide (RowLe ks y x)
  | _ => false

/-- A frame clause. -/
structure Extent where
  rows : Bool
  lo : Edge
  hi : Edge

/-- The row `y` at `j` is in the frame of the row `x` at `i`. -/
def Extent.has (ks : List (Key ρ)) (w : Extent) (x : ρ) (i : Nat) (y : ρ) (j : Nat) : Bool :=
  if w.rows then w.lo.rowsFrom i j && w.hi.rowsUpto i j else w.lo.rangeFrom ks x y && w.hi.rangeUpto ks x y

/-- The frame of the row `x` at `i`. -/
def frameOf (ks : List (Key ρ)) (w : Extent) (P : List ρ) (x : ρ) (i : Nat) : List ρ :=
  (P.zipIdx.filter fun p => w.has ks x i p.1 p.2).map (·.1)

/-- What a bound says. -/
def edge (b : WBound) : Edge :=
  match b.ty, b.unbounded with
  | .preceding, true => .unboundedPreceding
  | .preceding, false => .preceding (b.lit.getD 0)
  | .current, _ => .current
  | .following, false => .following (b.lit.getD 0)
  | .following, true => .unboundedFollowing

/-- What a window says of frames: the clause, or up to the current row and its equals when there is ORDER BY, or everything. -/
def extent (o : Over ρ) : Extent :=
  match o.frame, o.order with
  | some w, _ => ⟨w.rows, edge w.lo, edge w.hi⟩
  | none, some _ => ⟨false, .unboundedPreceding, .current⟩
  | none, none => ⟨false, .unboundedPreceding, .unboundedFollowing⟩

/-! ## Values -/

/-- The values of `a` in `F` that are not NULL. -/
def args (a : ρ → EV) (F : List ρ) : List EV := (F.map a).filter fun v => !v.isNull

/-- A number as an INT64 value. -/
def IsInt (v : EV) (x : Int) : Prop := v.ty = .int64 ∧ sem v = some (.num x)
/-- A double by its bits. -/
def IsDbl (v : EV) (x : BitVec 64) : Prop := v.ty = .double ∧ v.u = x
def IsNull (v : EV) : Prop := v.ty = .null

/-- Rows of the partition before `x`, and not after it. -/
def before (ks : List (Key ρ)) (P : List ρ) (x : ρ) : Nat := P.countP fun r => decide (rowOrd ks r x = .lt)
def upTo (ks : List (Key ρ)) (P : List ρ) (x : ρ) : Nat := P.countP fun r => decide (RowLe ks r x)

/-- The bucket `b` of NTILE(n) of `N` rows starts here: buckets differ in size by at most one, the larger ones first. -/
def bucketStart (N n b : Nat) : Nat := (b - 1) * (N / n) + min (b - 1) (N % n)

/-- `v` is the value of the function `f` for the row `x`, at position `i` of its partition `P`, with frame `F`. -/
def Value (fp : Fp) (ks : List (Key ρ)) (f : Fn ρ) (P : List ρ) (x : ρ) (i : Nat) (F : List ρ) (v : EV) : Prop :=
  match f with
  | .countStar => IsInt v F.length
  | .count as => IsInt v (F.countP fun r => as.all fun a => !(a r).isNull : Nat)
  | .sum a =>
    (args a F = [] → IsNull v) ∧
    (args a F ≠ [] → ∀ xs : List Int, (args a F).map sem = xs.map (fun x => some (SVal.num x)) →
      ∃ y, IsInt v y ∧ (2 ^ 64 : Int) ∣ y - xs.sum ∧ (-2 ^ 63 ≤ xs.sum → xs.sum < 2 ^ 63 → y = xs.sum))
  | .sumDbl a =>
    match (args a F).map fp.ofVal with
    | [] => IsNull v
    | x :: xs => IsDbl v (xs.foldl fp.add x)
  | .avg a =>
    match (args a F).map fp.ofVal with
    | [] => IsNull v
    | xs => IsDbl v (fp.div (xs.foldl fp.add 0) (fp.ofInt xs.length))
  | .min a =>
    (args a F = [] → IsNull v) ∧
    (args a F ≠ [] → v ∈ args a F ∧ ∃ m, sem v = some m ∧ ∀ w ∈ args a F, ∃ y, sem w = some y ∧ SVal.cmp m y ≠ .gt)
  | .max a =>
    (args a F = [] → IsNull v) ∧
    (args a F ≠ [] → v ∈ args a F ∧ ∃ m, sem v = some m ∧ ∀ w ∈ args a F, ∃ y, sem w = some y ∧ SVal.cmp y m ≠ .gt)
  | .rowNumber => IsInt v (i + 1)
  | .rank => IsInt v (before ks P x + 1)
  | .denseRank =>
    ∃ reps : List ρ, (∀ q ∈ reps, q ∈ P ∧ rowOrd ks q x = .lt) ∧ (reps.Pairwise fun q q' => rowOrd ks q q' ≠ .eq) ∧
      (∀ r ∈ P, rowOrd ks r x = .lt → ∃ q ∈ reps, rowOrd ks r q = .eq) ∧ IsInt v (reps.length + 1)
  | .percentRank => IsDbl v (if P.length = 1 then 0 else fp.div (fp.ofInt (before ks P x)) (fp.ofInt ((P.length : Int) - 1)))
  | .cumeDist => IsDbl v (fp.div (fp.ofInt (upTo ks P x)) (fp.ofInt P.length))
  | .ntile n => ∃ b : Nat, 1 ≤ b ∧ (b : Int) ≤ n ∧ bucketStart P.length n.toNat b ≤ i ∧ i < bucketStart P.length n.toNat (b + 1) ∧ IsInt v b
  | .lead a k d => v = if i + k < P.length then ((P[(i + k).toNat]?).map a).getD nullV else (d.map (· x)).getD nullV
  | .lag a k d => v = if k ≤ i then ((P[(i - k).toNat]?).map a).getD nullV else (d.map (· x)).getD nullV
  | .firstValue a => v = (F.head?.map a).getD nullV
  | .lastValue a => v = (F.getLast?.map a).getD nullV
  | .nthValue a n => v = (F[(n - 1).toNat]?.map a).getD nullV

/-- Every row of `out` has with it the values of the functions `fs`, in order: its partition is the rows that agree with it on
PARTITION BY, in the order they have in `out`. -/
def Answers (fp : Fp) (part : List (ρ → EV)) (ks : List (Key ρ)) (fs : List (Fn ρ × Extent)) (out : List (ρ × List EV)) : Prop :=
  ∀ (A B : List (ρ × List EV)) (x : ρ) (vs : List EV), out = A ++ (x, vs) :: B →
    vs.length = fs.length ∧ ∀ (j : Nat) (f : Fn ρ) (w : Extent), fs[j]? = some (f, w) → ∃ v : EV, vs[j]? = some v ∧
      Value fp ks f ((out.map (·.1)).filter (samePart part x)) x ((A.map (·.1)).countP (samePart part x))
        (frameOf ks w ((out.map (·.1)).filter (samePart part x)) x ((A.map (·.1)).countP (samePart part x))) v

/-- Of the rows in the order `L`, which is an order by the items of the window `o`, each has in `val` the value of `f OVER o`. -/
def Computes {σ : Type} (fp : Fp) (f : Fn ρ) (o : Over ρ) (row : σ → ρ) (val : σ → Option EV) (L : List σ) : Prop :=
  (L.map row).Pairwise (RowLe (o.part.map (fun a => ⟨a, true, true⟩) ++ o.order.getD [])) ∧
  ∀ (A B : List σ) (s : σ), L = A ++ s :: B → ∃ v : EV, val s = some v ∧
    Value fp (o.order.getD []) f ((L.map row).filter (samePart o.part (row s))) (row s) ((A.map row).countP (samePart o.part (row s)))
      (frameOf (o.order.getD []) (extent o) ((L.map row).filter (samePart o.part (row s))) (row s) ((A.map row).countP (samePart o.part (row s)))) v

/-- The functions that look at frames. -/
def looks : Fn ρ → Bool
  | .countStar => true
  | .count _ => true
  | .sum _ => true
  | .sumDbl _ => true
  | .avg _ => true
  | .min _ => true
  | .max _ => true
  | .firstValue _ => true
  | .lastValue _ => true
  | .nthValue _ _ => true
  | .rowNumber => false
  | .rank => false
  | .denseRank => false
  | .percentRank => false
  | .cumeDist => false
  | .ntile _ => false
  | .lead _ _ _ => false
  | .lag _ _ _ => false

/-- The windows the planner takes: a frame needs ORDER BY, must not begin at the end or end at the beginning, with RANGE has no
numbers, and is for functions that look at it. -/
def Legal (f : Fn ρ) (o : Over ρ) : Prop :=
  ∀ w, o.frame = some w → o.order.isSome = true ∧ edge w.lo ≠ .unboundedFollowing ∧ edge w.hi ≠ .unboundedPreceding ∧
    (w.rows = false → (edge w.lo = .unboundedPreceding ∨ edge w.lo = .current) ∧ (edge w.hi = .unboundedFollowing ∨ edge w.hi = .current)) ∧
    looks f = true

/-! ## What is assumed -/

/-- Laws of division of doubles. -/
structure FpOk (fp : Fp) : Prop where
  zero_div : ∀ k : Int, 0 < k → fp.div (fp.ofInt 0) (fp.ofInt k) = 0
  self_div : ∀ k : Int, 0 < k → fp.div (fp.ofInt k) (fp.ofInt k) = fp.ofInt 1

/-- The function can be computed on `N` rows: its argument is of an integer type (SUM), of one ordered type and never NaN
(MIN, MAX); numbers of rows, buckets, offsets are in range. -/
def FnOk (rows : List ρ) : Fn ρ → Prop
  | .sum a => ∀ r ∈ rows, (a r).isNull = true ∨ IntTy (a r).ty
  | .min a | .max a => ∃ t, Ordered t ∧ ∀ r ∈ rows, (a r).isNull = true ∨ ((a r).ty = t ∧ NotNaN (a r))
  | .ntile n => 0 < n
  | .lead _ k _ => 0 ≤ k ∧ k + rows.length ≤ 2 ^ 63
  | .lag _ k _ => 0 ≤ k
  | .nthValue _ n => 0 < n ∧ n < 2 ^ 31
  | _ => True

/-- A bound the parser makes, with a number below 2^31 - `N`. -/
def WBound.Ok (N : Nat) (b : WBound) : Prop :=
  (b.ty = .current → b.unbounded = false) ∧
  (b.unbounded = false → b.ty ≠ .current → ∃ x, b.lit = some x ∧ 0 ≤ x ∧ x + N ≤ 2 ^ 31) ∧
  ((b.unbounded = true ∨ b.ty = .current) → b.lit = none)

/-- The numbers in the frame of the window are fit for partitions of up to `N` rows. -/
def Over.Ok (N : Nat) (o : Over ρ) : Prop := ∀ w, o.frame = some w → WBound.Ok N w.lo ∧ WBound.Ok N w.hi

/-- Windows that print alike are alike, and no function that looks at frames comes after one that does not in windows that print
alike and have ORDER BY. -/
def Apart (ws : List (Fn ρ × Over ρ)) : Prop :=
  (∀ a ∈ ws, ∀ b ∈ ws, a.2.text = b.2.text → a.2.part = b.2.part ∧ a.2.order = b.2.order ∧ a.2.frame = b.2.frame) ∧
  ws.Pairwise fun a b => a.2.text = b.2.text → looks a.1 = false → looks b.1 = true → b.2.order = none

/-- What a window's items hold in the row `r`: a PARTITION BY item of one type, and no NaN, negative zero or NUL byte; ORDER BY
items as in ORDER BY.  (PARTITION BY items are sorted ascending.) -/
def SpecOk (ty : Key ρ → VTy) (part : List (ρ → EV)) (ks : List (Key ρ)) (r : ρ) : Prop :=
  (∀ a ∈ part, (IntTy (ty ⟨a, true, true⟩) ∨ Direct (ty ⟨a, true, true⟩)) ∧ ((a r).isNull = true ∨
    ((a r).ty = ty ⟨a, true, true⟩ ∧ NotNaN (a r) ∧ ¬ NegZero (a r) ∧ (ty ⟨a, true, true⟩ = .string → 0#8 ∉ (a r).s)))) ∧
  RowOK ty ks r

end BaikalDB.Window.Spec
