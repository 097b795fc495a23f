import Verif.Corr.Model

/-!
# Derived tables and unions: moving conditions and aggregations into the subqueries

Model of src/exec/dual_scan_node.cpp (`predicate_pushdown` L214-262, `agg_pushdown` L345-410, `create_subquery_agg_node`
L474-553, `get_subquery_group_by_slots` L576-597, `get_subquery_window_partition_by_slots` L599-640,
`can_expr_predicate_pushdown` L642-713, `can_predicate_pushdown` L715-731, `get_next` L129-195), src/exec/union_node.cpp
(L221-277), src/expr/expr_node.cpp L233-352 and src/exec/agg_node.cpp L345-404.

Slots are numbers `tuple << 16 | slot id`.  The subquery's plan is FROM, WHERE, AGG, HAVING, windows, LIMIT, in this order
(src/logical_plan/select_planner.cpp L160-195); its tables are the rows `base`.  ORDER BY is left out: the order of the rows
of a derived table is not observable unless there is a LIMIT, and then nothing is moved.  The cast of a projected value to
the projection's own type (L165) is left out.
-/

namespace BaikalDB.Derived
open BaikalDB.Expr (EV)
open BaikalDB.Pred (Row noRow nullV)
open BaikalDB.Corr (groupRows)

/-- Expressions: slots, literals, functions of any number of arguments. -/
inductive Ex where
  | slot (s : Nat)
  | lit (v : EV)
  | fn (f : List EV → EV) (args : List Ex)

mutual
def Ex.eval (r : Row) : Ex → EV
  | .slot s => r s
  | .lit v => v
  | .fn f args => f (evals r args)
def evals (r : Row) : List Ex → List EV
  | [] => []
  | e :: es => e.eval r :: evals r es
end

mutual
/-- expr_node.cpp L332-339 `get_all_tuple_slot_ids`; also the slots behind `get_all_tuple_ids` and `get_all_slot_ids`. -/
def Ex.slots : Ex → List Nat
  | .slot s => [s]
  | .lit _ => []
  | .fn _ args => slotsL args
def slotsL : List Ex → List Nat
  | [] => []
  | e :: es => e.slots ++ slotsL es
end

def tupleOf (s : Nat) : Nat := s / 65536
def idOf (s : Nat) : Nat := s % 65536

/-- `_slot_column_mapping` and `_derived_table_projections`: the projection an outer slot stands for.  (The mapping has every
slot of the derived table's tuple; that it fails otherwise is left out.) -/
def projOf (mapping : List (Nat × Nat)) (projs : List Ex) (s : Nat) : Ex :=
  ((mapping.lookup (idOf s)).bind fun i => projs[i]?).getD (.lit nullV)

mutual
/-- expr_node.cpp L233-272 `replace_slot_ref_to_expr`. -/
def Ex.subst (t : Nat) (mapping : List (Nat × Nat)) (projs : List Ex) : Ex → Ex
  | .slot s => if tupleOf s = t then projOf mapping projs s else .slot s
  | .lit v => .lit v
  | .fn f args => .fn f (substL t mapping projs args)
def substL (t : Nat) (mapping : List (Nat × Nat)) (projs : List Ex) : List Ex → List Ex
  | [] => []
  | e :: es => e.subst t mapping projs :: substL t mapping projs es
end

mutual
/-- expr_node.cpp L300-330 `get_all_subquery_tuple_slot_ids`: looks at the children of a node only, so that it finds nothing in
an expression that is a slot. -/
def Ex.innerSlots (t : Nat) (mapping : List (Nat × Nat)) (projs : List Ex) : Ex → List Nat
  | .slot _ => []
  | .lit _ => []
  | .fn _ args => innerSlotsL t mapping projs args
def innerSlotsL (t : Nat) (mapping : List (Nat × Nat)) (projs : List Ex) : List Ex → List Nat
  | [] => []
  | .slot s :: es => (if tupleOf s = t then (projOf mapping projs s).slots else []) ++ innerSlotsL t mapping projs es
  | e :: es => e.innerSlots t mapping projs ++ innerSlotsL t mapping projs es
end

/-- An aggregate function: the slot it writes, the function of the values of its argument. -/
structure AggF where
  out : Nat
  f : List EV → EV
  arg : Ex

structure AggE where
  groups : List Ex
  funcs : List AggF

/-- A window: PARTITION BY, the slot it writes, the value from the rows of the partition and a position among them. (See C62.) -/
structure Win where
  parts : List Ex
  out : Nat
  f : List Row → Nat → EV

/-- The plan of a subquery; `special`: which projections contain an aggregate or window function
(`_derived_table_projections_agg_or_window_vec`). -/
structure Sub where
  base : List Row
  wher : List Ex
  agg : Option AggE
  having : List Ex
  wins : List Win
  limit : Option (Nat × Nat)
  projs : List Ex
  special : List Bool

variable {κ : Type} [DecidableEq κ] (key : EV → κ) (truth : EV → Bool)

def exKey (es : List Ex) (r : Row) : List κ := es.map fun e => key (e.eval r)

def passes (cs : List Ex) (r : Row) : Bool := cs.all fun c => truth (c.eval r)

/-- The row of a group: the first row with the functions' slots written. -/
def aggRow (funcs : List AggF) (first : Row) (rows : List Row) : Row := fun s =>
  ((funcs.find? fun f => f.out == s).map fun f => f.f (rows.map fun r => f.arg.eval r)).getD (first s)

/-- The aggregation (AGG_NODE with the MERGE_AGG_NODE above it; C51 for the two): a row per group; without GROUP BY always one. -/
def AggE.run (g : AggE) (rows : List Row) : List Row :=
  if g.groups = [] ∧ rows = [] then [aggRow g.funcs noRow []]
  else (groupRows (exKey key g.groups) rows).map fun m => aggRow g.funcs (m.headD noRow) m

/-- A window node (src/exec/window_node.cpp, C62). -/
def Win.run (w : Win) (rows : List Row) : List Row :=
  rows.zipIdx.map fun (x, i) =>
    let same := fun y => decide (exKey key w.parts y = exKey key w.parts x)
    fun s => if s = w.out then w.f (rows.filter same) ((rows.take i).filter same).length else x s

/-- The rows below the projection. -/
def Sub.rows (q : Sub) : List Row :=
  let r1 := q.base.filter (passes truth q.wher)
  let r2 := q.agg.elim r1 fun g => g.run key r1
  let r3 := r2.filter (passes truth q.having)
  let r4 := q.wins.foldl (fun rows w => w.run key rows) r3
  q.limit.elim r4 fun l => (r4.drop l.1).take l.2

/-- A derived table: its tuple, which outer slot is which projection, its subquery. -/
structure Derived where
  tuple : Nat
  mapping : List (Nat × Nat)
  sub : Sub

/-- dual_scan_node.cpp L164-177: a row of the derived table. -/
def Derived.outerRow (d : Derived) (r : Row) : Row := fun s =>
  if tupleOf s = d.tuple then (projOf d.mapping d.sub.projs s).eval r else nullV

def Derived.rows (d : Derived) : List Row := (d.sub.rows key truth).map d.outerRow

/-- The slots among expressions. -/
def bareSlots : List Ex → List Nat
  | [] => []
  | .slot s :: es => s :: bareSlots es
  | _ :: es => bareSlots es

/-- L599-640: the slots in PARTITION BY of all windows. -/
def partitionSlots : List Win → List Nat
  | [] => []
  | [w] => bareSlots w.parts
  | w :: ws => (bareSlots w.parts).filter fun s => (partitionSlots ws).contains s

/-- expr_node.cpp L274-298 `has_agg_or_window_projection`. -/
def hasSpecial (d : Derived) (e : Ex) : Bool :=
  e.slots.any fun s => ((d.mapping.lookup (idOf s)).bind fun i => d.sub.special[i]?).getD false

/-- L642-732: whether a condition of the outer query goes into the subquery: there is no LIMIT; it mentions the derived table and
nothing else (`get_all_tuple_ids`); no projection it stands for has an aggregate or window function; the slots in it are in
GROUP BY and in PARTITION BY of every window.  (A condition of WHERE contains no aggregate or window function itself.) -/
def canPush (d : Derived) (e : Ex) : Bool :=
  d.sub.limit.isNone && (!e.slots.isEmpty && e.slots.all fun s => decide (tupleOf s = d.tuple)) && !hasSpecial d e &&
  (d.sub.agg.elim true fun g => (e.innerSlots d.tuple d.mapping d.sub.projs).all fun s => (bareSlots g.groups).contains s) &&
  (d.sub.wins.isEmpty ||
    (e.innerSlots d.tuple d.mapping d.sub.projs).all fun s => (partitionSlots d.sub.wins).contains s)

/-- L214-262: conditions that can go become conditions of the subquery's WHERE, the others stay above the derived table. -/
def pushInto (d : Derived) (cs : List Ex) : Derived × List Ex :=
  ({ d with sub := { d.sub with
      wher := d.sub.wher ++ (cs.filter (canPush d)).map fun e => e.subst d.tuple d.mapping d.sub.projs } },
    cs.filter fun e => !canPush d e)

/-- The rows of a derived table that meet the conditions on it, as executed. -/
def scanDerived (d : Derived) (cs : List Ex) : List Row :=
  ((pushInto d cs).1.rows key truth).filter (passes truth (pushInto d cs).2)

/-- union_node.cpp L221-277, L71-104: every branch gets a copy of the conditions; the rows of the branches one after the other.
(Without ORDER BY on the union.) -/
def scanUnion (ds : List Derived) (cs : List Ex) : List Row := ds.flatMap fun d => scanDerived key truth d cs

/-- agg_node.cpp L363-404, dual_scan_node.cpp L733-749: an aggregation over derived tables goes into them if the conditions
that stay above them have slots in GROUP BY only, and the subqueries have neither aggregation nor window nor LIMIT. -/
def canPushAgg (ds : List Derived) (cs : List Ex) (g : AggE) : Bool :=
  (cs.all fun c => c.slots.all fun s => (bareSlots g.groups).contains s) &&
  ds.all fun d => d.sub.agg.isNone && d.sub.having.isEmpty && d.sub.wins.isEmpty && d.sub.limit.isNone

/-- dual_scan_node.cpp L474-553: the aggregation inside the subquery. -/
def innerAgg (d : Derived) (g : AggE) : AggE :=
  { groups := g.groups.map fun e => e.subst d.tuple d.mapping d.sub.projs
    funcs := g.funcs.map fun f => { f with arg := f.arg.subst d.tuple d.mapping d.sub.projs } }

/-- A row of an aggregation inside a derived table as it arrives above: the columns, and for each function the values its state
stands for. -/
structure Part where
  row : Row
  vals : List (List EV)

/-- The rows an aggregation inside a derived table returns: columns from the first row of the group (L164-177), the aggregation's
slots from the aggregation (L178-190).  Without GROUP BY there is a row also for nothing (agg_node.cpp L490-503, below a packet
node). -/
def innerAggRows (d : Derived) (g : AggE) : List Part :=
  let rows := d.sub.base.filter (passes truth d.sub.wher)
  if g.groups = [] ∧ rows = [] then [⟨d.outerRow noRow, g.funcs.map fun _ => []⟩]
  else (groupRows (exKey key (innerAgg d g).groups) rows).map fun m =>
    ⟨d.outerRow (m.headD noRow), (innerAgg d g).funcs.map fun f => m.map fun r => f.arg.eval r⟩

/-- The row with the functions' values. -/
def partRow (funcs : List AggF) (p : Part) : Row := fun s =>
  (((funcs.zip p.vals).find? fun x => x.1.out == s).map fun x => x.1.f x.2).getD (p.row s)

/-- L389-397: over one derived table the outer aggregation is deleted, so that its row is the row from inside. -/
def aggOne (d : Derived) (cs : List Ex) (g : AggE) : List Row :=
  ((innerAggRows key truth (pushInto d cs).1 g).map (partRow g.funcs)).filter (passes truth (pushInto d cs).2)

/-- MERGE_AGG: the states of rows one after the other, function by function. -/
def mergeVals (n : Nat) : List Part → List (List EV)
  | [] => List.replicate n []
  | p :: ps => List.zipWith (· ++ ·) p.vals (mergeVals n ps)

/-- Over a union the outer aggregation becomes a MERGE_AGG: rows without GROUP BY whose functions have seen nothing are dropped
(agg_node.cpp L521-526; a state that has seen only NULLs counts as such there, which is left out). -/
def aggUnion (ds : List Derived) (cs : List Ex) (g : AggE) : List Row :=
  let parts := ds.flatMap fun d =>
    (innerAggRows key truth (pushInto d cs).1 g).filter fun p => passes truth (pushInto d cs).2 p.row
  let parts := if g.groups = [] then parts.filter fun p => !(p.vals.all List.isEmpty) else parts
  if g.groups = [] ∧ parts = [] then [aggRow g.funcs noRow []]
  else (groupRows (fun p => exKey key g.groups p.row) parts).map fun m =>
    partRow g.funcs ⟨(m.map Part.row).headD noRow, mergeVals g.funcs.length m⟩

end BaikalDB.Derived
