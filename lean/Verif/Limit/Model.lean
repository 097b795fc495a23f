import Mathlib.Tactic.Common
/-!
# LIMIT pushed into the plan

Model of src/physical_plan/separate.cpp (`separate_simple_select`, `separate_join`), src/physical_plan/limit_calc.cpp and of what a
node's own limit does when the plan is run (src/exec/).  A SELECT without window functions, subqueries or derived tables is a chain

  LIMIT - SORT - HAVING - AGG - WHERE - tree of joins over tables

(src/logical_plan/select_planner.cpp L144-172), each of SORT, HAVING, AGG and WHERE being optional.  `separate` decides which part of
the chain is sent to the stores (everything below a SELECT_MANAGER node runs once per region) and moves the chain below an outer
join; `limitCalc` then gives nodes limits of their own, so that they stop early.

A row is the list of its slots with their values; a slot that is missing is NULL, which is how the row of an outer join without
partner looks like.  Not modelled: full export (only chosen for plans without join, HAVING, AGG and SORT), plans with merged indexes,
scans that are answered on the frontend (information_schema), the vectorized executor, and the sorter itself (see `Verif.Sort`: a
SORT node sorts, and merging the regions' sorted rows is sorting them).
-/
namespace BaikalDB.Limit

/-- A slot: the id of its tuple (one for each table of the FROM clause) and its number in the tuple. -/
abbrev Slot := Nat × Nat

abbrev Row (V : Type) := List (Slot × V)

variable {V : Type}

/-- The value in a slot; `none` is NULL. -/
def get (r : Row V) (s : Slot) : Option V := (r.find? fun e => e.1 == s).map (·.2)

/-- A condition reads slots and yields true or not true. -/
structure Cond (V : Type) where
  slots : List Slot
  fn : List (Option V) → Bool

def Cond.holds (c : Cond V) (r : Row V) : Bool := c.fn (c.slots.map (get r))

/-- src/exec/filter_node.cpp L726-734 `need_copy`: all conditions must be true. -/
def pass (cs : List (Cond V)) (r : Row V) : Bool := cs.all fun c => c.holds r

/-- ORDER BY: the slots it reads (`slot_order_exprs`) and the comparison of their values. -/
structure Order (V : Type) where
  slots : List Slot
  le : List (Option V) → List (Option V) → Bool

def Order.leRow (o : Order V) (x y : Row V) : Bool := o.le (o.slots.map (get x)) (o.slots.map (get y))

/-- GROUP BY / DISTINCT without aggregate functions keeps one row for each combination of values of its columns (only columns, no
expressions); with aggregate functions, `part` is what an AGG node makes of its rows and `merge` what a MERGE_AGG node makes of the
results of several AGG nodes (`Verif.Agg`). -/
inductive Agg (V : Type) where
  | distinct (slots : List Slot)
  | fns (part merge : List (Row V) → List (Row V))

inductive JoinTy where
  | inner | left | right | full
  deriving DecidableEq

/-- The plan below the LIMIT node.  `lim` is `_limit` (`none` for -1).  For a SELECT_MANAGER node, `o` is its sort info. -/
inductive Plan (V : Type) where
  | scan (t : Nat) (lim : Option Nat)
  | filter (cs : List (Cond V)) (lim : Option Nat) (p : Plan V)
  | having (cs : List (Cond V)) (lim : Option Nat) (p : Plan V)
  | sort (o : Order V) (lim : Option Nat) (p : Plan V)
  | agg (a : Agg V) (merger : Bool) (lim : Option Nat) (p : Plan V)
  | manager (o : Option (Order V)) (lim : Option Nat) (p : Plan V)
  | join (ty : JoinTy) (on : List (Cond V)) (lim : Option Nat) (l r : Plan V)

/-- The FROM clause after the push-down of conditions, which leaves filters inside of it. -/
inductive From (V : Type) where
  | scan (t : Nat)
  | filter (cs : List (Cond V)) (f : From V)
  | join (ty : JoinTy) (on : List (Cond V)) (l r : From V)

/-- The chain of a SELECT.  `where_ = some []` is a WHERE node all conditions of which have been pushed down. -/
structure Query (V : Type) where
  order : Option (Order V)
  having : Option (List (Cond V))
  agg : Option (Agg V)
  where_ : Option (List (Cond V))
  frm : From V

/-! ### separate.cpp -/

/-- `left_tuple_ids` and `right_tuple_ids` of a join: the tables below its children. -/
def Plan.tables : Plan V → List Nat
  | .scan t _ => [t]
  | .filter _ _ p | .having _ _ p | .sort _ _ p | .agg _ _ _ p | .manager _ _ p => p.tables
  | .join _ _ _ l r => l.tables ++ r.tables

/-- L165-172: no JOIN node. -/
def From.single : From V → Bool
  | .scan _ => true
  | .filter _ f => f.single
  | .join .. => false

def From.toPlan : From V → Plan V
  | .scan t => .scan t none
  | .filter cs f => .filter cs none f.toPlan
  | .join ty on l r => .join ty on none l.toPlan r.toPlan

/-- L320-377: every table of a join, with the filters directly above it, is put below a SELECT_MANAGER node. -/
def From.managed : From V → Plan V
  | .scan t => .manager none none (.scan t none)
  | .filter cs f => if f.single then .manager none none (.filter cs none f.toPlan) else .filter cs none f.managed
  | .join ty on l r => .join ty on none l.managed r.managed

/-- A node of the chain that can be moved below a join. -/
inductive Link (V : Type) where
  | sort (o : Order V)
  | having (cs : List (Cond V))
  | filter (cs : List (Cond V))

def Link.on : Link V → Plan V → Plan V
  | .sort o, p => .sort o none p
  | .having cs, p => .having cs none p
  | .filter cs, p => .filter cs none p

/-- The chain (outermost node first) on top of a plan. -/
def onTop : List (Link V) → Plan V → Plan V
  | [], p => p
  | k :: ks, p => k.on (onTop ks p)

/-- L417-419, L424-426: the SORT node between the join and the LIMIT node or the join above. -/
def sortOf : List (Link V) → Option (Order V)
  | [] => none
  | .sort o :: _ => some o
  | _ :: ks => sortOf ks

/-- L428-431, L469-474: all WHERE and TABLE filters of the chain are empty; HAVING filters are not looked at. -/
def noFilter : List (Link V) → Bool
  | [] => true
  | .filter cs :: ks => cs.isEmpty && noFilter ks
  | _ :: ks => noFilter ks

/-- join_node.h `expr_in_tuple_ids` for the ORDER BY expressions, L475-482. -/
def sortIn (ts : List Nat) : Option (Order V) → Bool
  | none => true
  | some o => o.slots.all fun s => ts.contains s.1

/-- L435-443, L468-490: the chain may be moved below the join whose driving side has the tables `ts`.  `limited` says that the LIMIT
node is above the chain; otherwise it is a join, and there has to be a SORT node. -/
def canPush (limited : Bool) (ks : List (Link V)) (ts : List Nat) : Bool :=
  (limited || (sortOf ks).isSome) && noFilter ks && sortIn ts (sortOf ks) && !ks.isEmpty

/-- Where the chain of an outer join goes (L493-511): the plan that hangs there now, and what becomes of the join when another plan
hangs there. -/
def driven : Plan V → Option (Plan V × (Plan V → Plan V))
  | .join .left on lim (.manager o ml c) r => some (c, fun x => .join .left on lim (.manager o ml x) r)
  | .join .right on lim l (.manager o ml c) => some (c, fun x => .join .right on lim l (.manager o ml x))
  | .join .left on lim l r => some (l, fun x => .join .left on lim x r)
  | .join .right on lim l r => some (r, fun x => .join .right on lim l x)
  | _ => none

/-- L450-457: the tables of the driving side of an outer join. -/
def drivingTables : Plan V → List Nat
  | .join .left _ _ l _ => l.tables
  | .join .right _ _ _ r => r.tables
  | _ => []

/-- The filters on top of a plan, outermost first, and the plan below them. -/
def peel : Plan V → List (Link V) × Plan V
  | .filter cs _ p => (.filter cs :: (peel p).1, (peel p).2)
  | p => ([], p)

/-- L400-511 for the join at the bottom of the chain `ks`, and then for the joins on its driving side.

A join below another join is treated when the one above has been rearranged: its chain ends at that join, `parent` is that join and
`start` is `parent->children(0)` (L483), which is the top of the chain only if the parent is a LEFT JOIN.  Below a RIGHT JOIN,
`start` is the plan of the other side: that plan is hung into the lower join, which takes its place (second case of `.right`). -/
def pushChain (limited : Bool) (ks : List (Link V)) : Plan V → Plan V
  | .filter cs _ p => pushChain limited (ks ++ [.filter cs]) p
  | .manager _ lim c => .manager (sortOf ks) lim (onTop ks c)
  | .join .left on lim l r =>
    if canPush limited ks l.tables then .join .left on lim (pushChain false ks l) r
    else onTop ks (.join .left on lim l r)
  | .join .right on lim l r =>
    if canPush limited ks r.tables then
      match driven (peel r).2 with
      | some (d, ctx) =>
        if canPush false (ks ++ (peel r).1) (drivingTables (peel r).2) then
          .join .right on lim (ctx l) (onTop (ks ++ (peel r).1) d)
        else .join .right on lim l (onTop ks r)
      | none => .join .right on lim l (pushChain false ks r)
    else onTop ks (.join .right on lim l r)
  | p => onTop ks p

/-- The chain above the tree of joins, without AGG. -/
def Query.chain (q : Query V) : List (Link V) :=
  (q.order.map Link.sort).toList ++ (q.having.map Link.having).toList ++ (q.where_.map Link.filter).toList

/-- The part of the chain above the AGG node and the part below it. -/
def Query.upper (q : Query V) : List (Link V) :=
  (q.order.map Link.sort).toList ++ (q.having.map Link.having).toList
def Query.lower (q : Query V) : List (Link V) := (q.where_.map Link.filter).toList

/-- L164-187 `separate_select`, L189-286 `separate_simple_select`, L314-513 `separate_join`, for a SELECT with a LIMIT. -/
def separate (q : Query V) : Plan V :=
  if q.frm.single then
    match q.agg with
    | some a => onTop q.upper (.agg a true none (.manager none none (.agg a false none (onTop q.lower q.frm.toPlan))))
    | none => .manager q.order none (onTop q.chain q.frm.toPlan)
  else
    match q.agg with
    | some a => onTop q.upper (.agg a false none (onTop q.lower q.frm.managed))
    | none => pushChain true q.chain q.frm.managed

/-! ### limit_calc.cpp -/

/-- limit_calc.cpp L33-97 `_analyze_limit`.  The child of a MERGE_AGG node without functions is a SELECT_MANAGER node, which keeps
its limit while its child gets one. -/
def limitCalc (k : Nat) : Plan V → Plan V
  | .scan t _ => .scan t (some k)
  | .filter cs _ p => .filter cs (some k) (if cs.isEmpty then limitCalc k p else p)
  | .having cs _ p => .having cs (some k) p
  | .sort o _ p => .sort o (some k) p
  | .agg (.distinct ss) true _ (.manager o ml c) => .agg (.distinct ss) true (some k) (.manager o ml (limitCalc k c))
  | .agg (.distinct ss) true _ p => .agg (.distinct ss) true (some k) (limitCalc k p)
  | .agg a m _ p => .agg a m (some k) p
  | .manager o _ p => .manager o (some k) (limitCalc k p)
  | .join .inner on _ l r => .join .inner on (some k) l r
  | .join .left on _ l r => .join .left on (some k) (limitCalc k l) r
  | .join .right on _ l r => .join .right on (some k) l (limitCalc k r)
  | .join .full on _ l r => .join .full on (some k) (limitCalc k l) (limitCalc k r)

/-! ### Running the plan -/

/-- `reached_limit`: no row is handed out after the limit (filter_node.cpp L786-791, agg_node.cpp L559-562, join_node.cpp,
rocksdb_scan_node.cpp, select_manager_node.cpp L319-333). -/
def cut (lim : Option Nat) (l : List (Row V)) : List (Row V) :=
  match lim with
  | none => l
  | some k => l.take k

/-- agg_node.cpp L485-518 `process_row_batch`, without functions: a row whose group is new is put into the hash map (the map is kept
in the order of insertion here). -/
def addRows [DecidableEq V] (ss : List Slot) (m : List (Row V)) : List (Row V) → List (Row V)
  | [] => m
  | r :: rs =>
    if r.filter (fun e => ss.contains e.1) ∈ m then addRows ss m rs
    else addRows ss (m ++ [r.filter fun e => ss.contains e.1]) rs

/-- agg_node.cpp L436-481 `open`, without functions: batches are read until there are `_limit` groups. -/
def groupLoop [DecidableEq V] (ss : List Slot) (lim : Option Nat) (m : List (Row V)) : List (List (Row V)) → List (Row V)
  | [] => m
  | b :: bs =>
    if lim.any (fun k => decide (0 < k) && decide (k ≤ (addRows ss m b).length)) then addRows ss m b
    else groupLoop ss lim (addRows ss m b) bs

/-- Insertion of a row into sorted rows. -/
def insertRow (o : Order V) (x : Row V) : List (Row V) → List (Row V)
  | [] => [x]
  | y :: ys => if o.leRow x y then x :: y :: ys else y :: insertRow o x ys

/-- The rows in the order of the ORDER BY. -/
def sorted (o : Order V) (l : List (Row V)) : List (Row V) := l.foldr (insertRow o) []

def arrange (o : Option (Order V)) (l : List (Row V)) : List (Row V) := match o with
  | none => l
  | some o => sorted o l

/-- The joined rows in the order in which the join hands them out: by the row of the driving side (`Verif.Join`). -/
def joinRows (ty : JoinTy) (on : List (Cond V)) (ls rs : List (Row V)) : List (Row V) :=
  match ty with
  | .inner => ls.flatMap fun l => (rs.map (l ++ ·)).filter (pass on)
  | .left => ls.flatMap fun l =>
      if ((rs.map (l ++ ·)).filter (pass on)).isEmpty then [l] else (rs.map (l ++ ·)).filter (pass on)
  | .right => rs.flatMap fun r =>
      if ((ls.map (· ++ r)).filter (pass on)).isEmpty then [r] else (ls.map (· ++ r)).filter (pass on)
  | .full =>
      (ls.flatMap fun l =>
        if ((rs.map (l ++ ·)).filter (pass on)).isEmpty then [l] else (rs.map (l ++ ·)).filter (pass on)) ++
      rs.filter fun r => ((ls.map (· ++ r)).filter (pass on)).isEmpty

/-- The rows of each region of each table. -/
abbrev Data (V : Type) := Nat → List (List (Row V))

/-- The table of the plan below a SELECT_MANAGER node. -/
def Plan.table : Plan V → Nat
  | .scan t _ => t
  | .filter _ _ p | .having _ _ p | .sort _ _ p | .agg _ _ _ p | .manager _ _ p => p.table
  | .join _ _ _ l _ => l.table

/-- A store sees the rows of one region. -/
def only (D : Data V) (t : Nat) (reg : List (Row V)) : Data V := fun u => if u = t then [reg] else D u

/-- The rows a plan hands out.  `B` cuts the rows of a node into the batches in which they are handed to an AGG node. -/
def run [DecidableEq V] (B : List (Row V) → List (List (Row V))) (D : Data V) : Plan V → List (Row V)
  | .scan t lim => (D t).flatMap (cut lim)
  | .filter cs lim p => cut lim ((run B D p).filter (pass cs))
  | .having cs lim p => cut lim ((run B D p).filter (pass cs))
  | .sort o lim p => cut lim (sorted o (run B D p))
  | .agg (.distinct ss) _ lim p => cut lim (groupLoop ss lim [] (B (run B D p)))
  | .agg (.fns part merge) merger lim p => cut lim (if merger then merge (run B D p) else part (run B D p))
  | .manager o lim p => cut lim (arrange o ((D p.table).flatMap fun reg => run B (only D p.table reg) p))
  | .join ty on lim l r => cut lim (joinRows ty on (run B D l) (run B D r))

/-- limit_node.cpp L133-178: the first `offset` rows are skipped, the next `count` rows are the answer (`Verif.Sort`). -/
def answer [DecidableEq V] (B : List (Row V) → List (List (Row V))) (D : Data V) (offset count : Nat) (q : Query V) : List (Row V) :=
  ((run B D (limitCalc (offset + count) (separate q))).drop offset).take count

end BaikalDB.Limit
