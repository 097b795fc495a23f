import Verif.Pred.Model
import Verif.Sort.Model
import Verif.Window.Model

/-!
# Subqueries in conditions that do not refer to the outer query

Model of src/logical_plan/logical_planner.cpp (IN, NOT IN, ANY, ALL, EXISTS and comparison with a subquery) and of the
rewriting of the subquery itself in src/logical_plan/select_planner.cpp.  Such a subquery is executed while the outer query
is planned and the condition is built from its result; what is modelled is that condition, as a function of the values the
subquery returns.  One column, row-by-row execution.
-/

namespace BaikalDB.Subq
open BaikalDB.Expr (VTy EV)
open BaikalDB.Pred (Env PE Lit Op nullV boolV cast truth)
open BaikalDB.Window (minRow maxRow)
open BaikalDB.Sort (Key rowCompare)

/-- src/logical_plan/logical_planner.cpp L2805-2837 (`construct_literal_expr`) with include/expr/literal.h L42-115
(`init`) and L297-324 (`value_to_node_type`): the literal a value is written as.  Integers are carried as int64, FLOAT as
double, both keep the type of the value; the other types carry the value itself. -/
def lit (E : Env) (v : EV) : Lit :=
  if v.ty.isInt then ⟨⟨.int64, BitVec.ofInt 64 ((Expr.getInt v).getD 0), []⟩, v.ty⟩
  else match v.ty with
    | .float => ⟨cast E v .double, .float⟩
    | .double => ⟨⟨.double, v.u, []⟩, .double⟩
    | .string | .hex => ⟨⟨.string, 0, v.s⟩, v.ty⟩
    | .bool => ⟨boolV (truth E v), .bool⟩
    | .timestamp | .date | .time => ⟨⟨v.ty, (v.u.setWidth 32).setWidth 64, []⟩, v.ty⟩
    | .datetime => ⟨⟨.datetime, v.u, []⟩, .datetime⟩
    | _ => ⟨nullV, .null⟩

/-- A BOOL literal. -/
def boolLit (b : Bool) : PE := .lit ⟨boolV b, .bool⟩

/-- logical_planner.cpp L145-262 (`construct_in_predicate_node`, `handle_in_subquery`) with L2945-2998 of
`create_common_subquery_expr`: `x [NOT] IN (subquery)`.  No row at all: the list is a single NULL. -/
def inSub (E : Env) (isNot : Bool) (x : PE) (rows : List EV) : PE :=
  let e := PE.isIn x (if rows.isEmpty then [⟨nullV, .null⟩] else rows.map (lit E)) false
  if isNot then .not e else e

/-- logical_planner.cpp L2610-2665 (`handle_scalar_subquery`) with L2915-2944 of `create_common_subquery_expr`:
`x op (subquery)`.  `none`: the statement fails with ER_SUBQUERY_NO_1_ROW. -/
def scalarSub (E : Env) (op : Op) (x : PE) : List EV → Option PE
  | [] => some (.cmp op .invalid x (.lit ⟨nullV, .null⟩))
  | [v] => some (.cmp op .invalid x (.lit (lit E v)))
  | _ => none

/-- logical_planner.cpp L3285-3346 (`handle_exists_subquery`). -/
def existsSub (isNot : Bool) (rows : List EV) : PE :=
  boolLit ((!rows.isEmpty && !isNot) || (rows.isEmpty && isNot))

/-- logical_planner.cpp L3092-3111, L3140-3159: some value differs from the first. -/
def differ : List EV → Bool
  | [] => false
  | f :: rest => rest.any fun v => Expr.compare f v != 0

/-- logical_planner.cpp L3055-3243 (`handle_compare_subquery`): `x op ANY/ALL (subquery)` from the rows the rewritten subquery
returned (`all`: ALL).  With `<`, `<=`, `>`, `>=` there is at most one row, see `minmax`. -/
def cmpSub (E : Env) (op : Op) (all : Bool) (x : PE) (rows : List EV) : PE :=
  match rows with
  | [] => boolLit all
  | f :: _ =>
    match op with
    | .eq => if all then (if differ rows then boolLit false else .isIn x [lit E f] false) else .isIn x (rows.map (lit E)) false
    | .ne =>
      if all then .not (.isIn x (rows.map (lit E)) false)
      else if differ rows then boolLit false else .not (.isIn x [lit E f] false)
    | .gt | .ge => if all && rows.length == 1 && f.isNull then boolLit true else .cmp op .invalid x (.lit (lit E f))
    | .lt | .le => .cmp op .invalid x (.lit (lit E f))

/-- How the rewritten subquery computes MIN or MAX: as ORDER BY ... LIMIT 1 (the column itself selected, select_planner.cpp
L394-448 `minmax_remove`), as an aggregate, or as a window function with LIMIT 1 (subqueries with DISTINCT, aggregates or
window functions). -/
inductive Path where
  | sort | agg | window
deriving DecidableEq, Repr

/-- ORDER BY of `minmax_remove`: descending for MAX; NULLs come first exactly when ascending
(logical_planner.cpp L4071). -/
def sortKey (isMax : Bool) : Key EV := ⟨id, !isMax, !isMax⟩

/-- The first row of the sorted result (see C22, C23 for the sort itself). -/
def firstSorted (isMax : Bool) : List EV → Option EV
  | [] => none
  | v :: vs => some (vs.foldl (fun m w => if rowCompare [sortKey isMax] w m < 0 then w else m) v)

/-- The value of the aggregate or window function (src/expr/agg_fn_call.cpp L220-241, src/expr/window_fn_call.cpp
L420-445). -/
def foldMinMax (isMax : Bool) (vals : List EV) : EV :=
  vals.foldl (if isMax then maxRow id else minRow id) nullV

/-- The rows returned by `SELECT MIN(x)` / `SELECT MAX(x)` over the values `vals` of `x`.  ORDER BY ... LIMIT 1 is planned
with `must_have_one`: no row becomes one row of NULL (src/exec/select_manager_node.cpp L335).  The window function has
a value on every row; LIMIT 1 leaves one. -/
def minmax (p : Path) (isMax : Bool) (vals : List EV) : List EV :=
  match p with
  | .sort => [(firstSorted isMax vals).getD nullV]
  | .agg => [foldMinMax isMax vals]
  | .window => (vals.map fun _ => foldMinMax isMax vals).take 1

/-- select_planner.cpp L497-540 (`subquery_rewrite`): MAX for `> ALL`, `>= ALL`, `< ANY`, `<= ANY`, otherwise MIN; `=` and
`<>` leave the subquery as it is. -/
def rewrite (p : Path) (op : Op) (all : Bool) (vals : List EV) : List EV :=
  match op with
  | .eq | .ne => vals
  | .gt | .ge => minmax p all vals
  | .lt | .le => minmax p (!all) vals

/-- `x op ANY/ALL (SELECT y ...)`, where `vals` are the values of `y`. -/
def quantSub (E : Env) (p : Path) (op : Op) (all : Bool) (x : PE) (vals : List EV) : PE :=
  cmpSub E op all x (rewrite p op all vals)

end BaikalDB.Subq
