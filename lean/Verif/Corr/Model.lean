import Verif.Pred.Model

/-!
# Correlated subqueries: lifting conditions out of the subquery

Model of src/exec/apply_node.cpp `ApplyNode::decorrelate` (L57-187): conditions of a subquery that refer to the outer query are
taken out of its plan and become conditions of the apply node above it, so that the subquery can be executed once.  How
the apply node matches rows is the subject of C38; here it is the set of pairs for which all its conditions hold.

The plan of a subquery is a chain of nodes: HAVING, sort and limit above the pair of aggregation nodes, WHERE below it.  The
tables at the bottom, and joins, are the rows `base`; conditions in ON clauses are not modelled.
-/

namespace BaikalDB.Corr
open BaikalDB.Expr (EV)
open BaikalDB.Pred (Row noRow)

/-- A conjunct: its truth value for an outer row and a row of the subquery; whether it mentions the outer query; the slots of
the subquery's tables that stand alone on a side of it if it is an equality between both queries
(`extract_eq_inner_slots`, L57-66, L79-99); whether it is `outer column = inner column`, which the apply node looks rows up
by (src/exec/joiner.cpp L166-182, `strip_out_equal_slots`).  A slot is identified by `tuple << 16 | slot id`, as in
apply_node.cpp L402. -/
structure Conj (ρ : Type) where
  val : ρ → Row → Option Bool
  outer : Bool
  eqSlots : List Nat
  hashable : Bool

/-- A condition lets a pair pass if it is TRUE. -/
def Conj.holds {ρ : Type} (c : Conj ρ) (o : ρ) (r : Row) : Bool := c.val o r == some true

/-- Nodes other than the aggregation: filters (HAVING, WHERE, TABLE), sort, limit with offset, select manager. -/
inductive Node (ρ : Type) where
  | filter (cs : List (Conj ρ))
  | sort (f : List Row → List Row)
  | limit (off n : Nat)
  | manager

variable {ρ κ : Type} [DecidableEq κ]

/-- The rows a node returns for an outer row. -/
def Node.eval (o : ρ) (l : List Row) : Node ρ → List Row
  | .filter cs => l.filter fun r => cs.all fun c => c.holds o r
  | .sort f => f l
  | .limit off n => (l.drop off).take n
  | .manager => l

/-- A chain of nodes, the topmost first. -/
def evalNodes (o : ρ) (ns : List (Node ρ)) (l : List Row) : List Row := ns.foldr (fun n l => n.eval o l) l

/-- AGG_NODE and MERGE_AGG_NODE: the slots each groups by, the aggregate functions with the slots they write, and whether one
of them is COUNT(*). -/
structure Agg where
  groups : List Nat
  merge : List Nat
  funcs : List (Nat × (List Row → EV))
  countStar : Bool

/-- The groups of a list: in each group the elements in their order. (See C37 for the hash map behind it.) -/
def groupRows {α β : Type} [DecidableEq β] (k : α → β) (l : List α) : List (List α) :=
  (l.map k).eraseDups.map fun v => l.filter fun a => k a = v

def slotKey (key : EV → κ) (gs : List Nat) (r : Row) : List κ := gs.map fun s => key (r s)

/-- src/exec/agg_node.cpp L512-541, L567: a row of the aggregation is the first row of its group with the slots of the functions
written. -/
def finish (funcs : List (Nat × (List Row → EV))) (first : Row) (rows : List Row) : Row :=
  fun s => (funcs.lookup s).elim (first s) fun f => f rows

/-- AGG_NODE (agg_node.cpp L507-545): for each group the first row and the state of its functions; a function's state is represented by the rows it
has seen. -/
def Agg.partials (key : EV → κ) (g : Agg) (rows : List Row) : List (Row × List Row) :=
  (groupRows (slotKey key g.groups) rows).map fun m => (m.headD noRow, m)

/-- MERGE_AGG_NODE (agg_node.cpp L490-503, L507-545): merges the states of the partial rows with the same group; without GROUP BY
there is always a row. -/
def Agg.merged (key : EV → κ) (g : Agg) (parts : List (Row × List Row)) : List Row :=
  if g.merge = [] ∧ parts = [] then [finish g.funcs noRow []]
  else (groupRows (fun p => slotKey key g.merge p.1) parts).map fun m =>
    finish g.funcs ((m.map Prod.fst).headD noRow) (m.flatMap Prod.snd)

def Agg.rows (key : EV → κ) (g : Agg) (rows : List Row) : List Row := g.merged key (g.partials key rows)

/-- The plan of a subquery. -/
structure Plan (ρ : Type) where
  top : List (Node ρ)
  agg : Option Agg
  bottom : List (Node ρ)
  base : List Row

def Plan.rows (key : EV → κ) (p : Plan ρ) (o : ρ) : List Row :=
  evalNodes o p.top (p.agg.elim (evalNodes o p.bottom p.base) fun g => g.rows key (evalNodes o p.bottom p.base))

/-- An apply node: its conditions, the plan of the subquery, whether the subquery must return at most one row, and whether it
stands in the select list. -/
structure Apply (ρ : Type) where
  conds : List (Conj ρ)
  plan : Plan ρ
  maxOne : Bool
  selectField : Bool

/-- apply_node.cpp L115-168: the loop over a stretch of nodes: what is left of them, and the conditions taken out.  With an
aggregation (`hasAgg`) sorts and limits are deleted; a filter without conditions left is deleted. -/
def liftNodes (hasAgg : Bool) : List (Node ρ) → List (Node ρ) × List (Conj ρ)
  | [] => ([], [])
  | n :: ns =>
    let r := liftNodes hasAgg ns
    match n with
    | .filter cs =>
      let rest := cs.filter fun c => !c.outer
      (if rest.isEmpty then r.1 else .filter rest :: r.1, (cs.filter fun c => c.outer) ++ r.2)
    | .sort f => (if hasAgg then r.1 else .sort f :: r.1, r.2)
    | .limit off n => (if hasAgg then r.1 else .limit off n :: r.1, r.2)
    | .manager => (.manager :: r.1, r.2)

/-- The slot id of a slot, without the tuple it belongs to; ids count from 1 in every tuple
(src/logical_plan/logical_planner.cpp L3612, L3632, L2021). -/
def slotId (s : Nat) : Nat := s % 65536

/-- include/exec/agg_node.h L65-77, `add_group_expr`, for a list of slots: a slot is added unless its id is in
`_agg_slot_set` (`ids`).  Returned are the slots added. -/
def addSlots (ids : List Nat) : List Nat → List Nat
  | [] => []
  | s :: ss => if ids.contains (slotId s) then addSlots ids ss else s :: addSlots (slotId s :: ids) ss

/-- apply_node.cpp L124-133: the slots of lifted equalities become group expressions of both aggregation nodes.
`_agg_slot_set` starts with the ids of the slots of the aggregate functions (agg_node.cpp L45-49). (The code adds all slots
found so far at every lifted condition; the repetitions are in the set.) -/
def Agg.addGroups (g : Agg) (cs : List (Conj ρ)) : Agg :=
  let ss := addSlots (g.funcs.map fun f => slotId f.1) (cs.flatMap Conj.eqSlots)
  { g with groups := g.groups ++ ss, merge := g.merge ++ ss }

/-- apply_node.cpp L103-187: `decorrelate`.  At the aggregation it stops for a subquery in the select list and for COUNT(*). -/
def decorrelate (a : Apply ρ) : Apply ρ :=
  match a.plan.agg with
  | none =>
    let t := liftNodes false a.plan.top
    let b := liftNodes false a.plan.bottom
    { a with conds := a.conds ++ (t.2 ++ b.2), plan := { a.plan with top := t.1, bottom := b.1 } }
  | some g =>
    let t := liftNodes true a.plan.top
    if a.selectField || g.countStar then
      { a with conds := a.conds ++ t.2, maxOne := false, plan := { a.plan with top := t.1, agg := some (g.addGroups t.2) } }
    else
      let b := liftNodes true a.plan.bottom
      { a with conds := a.conds ++ (t.2 ++ b.2), maxOne := false,
               plan := { a.plan with top := t.1, agg := some (g.addGroups (t.2 ++ b.2)), bottom := b.1 } }

/-- Whether the outer row has a match; `none`: the statement fails with ER_SUBQUERY_NO_1_ROW.  Only the rows that meet the
equalities between columns are fetched (L394-438: `runtime_filter` pushes them into the subquery), and they are counted
whether or not they meet the other conditions.  SEMI_JOIN keeps the outer rows with a match, ANTI_SEMI_JOIN the others. -/
def Apply.matches (key : EV → κ) (a : Apply ρ) (o : ρ) : Option Bool :=
  let rows := a.plan.rows key o
  let fetched := rows.filter fun r => (a.conds.filter Conj.hashable).all fun c => c.holds o r
  if a.maxOne && decide (1 < fetched.length) then none
  else some (rows.any fun r => a.conds.all fun c => c.holds o r)

end BaikalDB.Corr
