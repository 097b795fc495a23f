import Verif.Part.Spec

/-!
# Named partitions and partitions that turn cold

`SELECT ... PARTITION (p0)`, `INSERT ... PARTITION (p0)`, `TRUNCATE`, and `MODIFY PARTITION`, by which
a partition of the primary type replaces its copies of the other type.

Files: `src/meta_server/table_manager.cpp`, `include/common/schema_factory.h`,
`src/physical_plan/plan_router.cpp`, `src/physical_plan/index_selector.cpp`.

Not modelled: the resource tag of a partition.
-/

namespace BaikalDB.Part

/-- `set_is_cold` on the first partition of a name (`src/meta_server/table_manager.cpp`
L1850-1893). -/
def setCold (n : String) (b : Bool) : List PInfo → List PInfo
  | [] => []
  | p :: l => if p.name = n then { p with cold := b } :: l else p :: setCold n b l

/-- `range_partition_map[range_key]` without the partition itself
(`src/meta_server/table_manager.cpp` L1832-1847, L1873-1880). The key of a range is the text of its
two bounds (`src/meta_server/meta_util.cpp` L484-499), which tells values of one type apart. -/
def copies (l : List PInfo) (p : PInfo) : List String :=
  (l.filter fun q => decide (q.ptype ≠ .additional ∧ q.left = p.left ∧ q.right = p.right ∧
    q.name ≠ p.name)).map (·.name)

/-- One entry of the request (`src/meta_server/table_manager.cpp` L1850-1894): the partitions and the
names to drop. An entry is a name and `is_cold`. -/
def modifyOne (orig : List PInfo) (primary : RType) (a : List PInfo × List String)
    (e : String × Bool) : List PInfo × List String :=
  match a.1.find? (fun p => decide (p.name = e.1)) with
  | none => a
  | some p =>
    if e.2 then
      if p.ptype = primary then (setCold e.1 true a.1, a.2 ++ copies orig p) else a
    else (setCold e.1 false a.1, a.2)

/-- `TableManager::modify_partition` (`src/meta_server/table_manager.cpp` L1794-1901): `none` is a
refusal, which changes nothing. -/
def modify (s : Schema) (dyn : Bool) (reqs : List (String × Bool)) : Option Schema :=
  dropPartition { s with parts := (reqs.foldl (modifyOne s.parts s.primary) (s.parts, [])).1 } dyn
    (reqs.foldl (modifyOne s.parts s.primary) (s.parts, [])).2

/-- A statement on the partitions of a table, `MODIFY PARTITION` included. -/
inductive Stmt
  | op (o : Op)
  | modify (dyn : Bool) (reqs : List (String × Bool))

/-- One statement: a refusal changes nothing. -/
def stepAll (ct : ColType) (s : Schema) : Stmt → Schema
  | .op o => step ct s o
  | .modify dyn reqs => (modify s dyn reqs).getD s

/-- `_partition_name_map` (`src/common/schema_factory.cpp` L3709-3711): the last partition whose name
is this one in lower case. `low` is the map to lower case. -/
def byName (low : String → String) (s : Schema) (n : String) : Option Int :=
  (s.parts.reverse.find? (fun p => decide (low p.name = n))).map (·.id)

/-- `get_partition_ids_by_name` (`include/common/schema_factory.h` L1559-1567). -/
def namedIds (low : String → String) (s : Schema) : List String → List Int → Option (List Int)
  | [], ids => some ids
  | n :: ns, ids =>
    match byName low s n with
    | none => none
    | some i => namedIds low s ns (insertId ids i)

/-- The partitions of a statement with the clause `PARTITION (...)`
(`src/physical_plan/index_selector.cpp` L995-1003); the planner has turned the names to lower case
(`src/logical_plan/logical_planner.cpp` L1472-1476). -/
def selectNamed (low : String → String) (s : Schema) (ns : List String) : Option (List Int) :=
  namedIds low s (ns.map low) []

/-- `INSERT ... PARTITION (...)` of rows with these values (`src/physical_plan/plan_router.cpp`
L128-147, `src/common/schema_factory.cpp` L3315-3322): the partition of each row; `none` is a
refusal. -/
def insertNamed (low : String → String) (s : Schema) (u : User) (ns : List String)
    (vs : List Val) : Option (List Int) :=
  match vs.mapM (writePartition s u) with
  | none => none
  | some is =>
    match selectNamed low s ns with
    | none => none
    | some ids => if is.all ids.contains then some is else none

/-- `TRUNCATE` (`src/physical_plan/plan_router.cpp` L441-463): the named partitions, or all. -/
def truncateIds (low : String → String) (s : Schema) (ns : List String) : Option (List Int) :=
  if ns = [] then some (insertAll [] s.parts) else selectNamed low s ns

end BaikalDB.Part
