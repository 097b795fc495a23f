import Mathlib.Tactic.Common

/-!
# Partitioned tables

`PARTITION BY RANGE` and `PARTITION BY HASH`: the partition a row is written to, the partitions a
statement reads for its `WHERE`, and `CREATE TABLE`, `ADD PARTITION`, `DROP PARTITION` at the meta
server.

Files: `include/common/schema_factory.h`, `src/common/schema_factory.cpp`,
`src/physical_plan/index_selector.cpp`, `src/meta_server/meta_util.cpp`,
`include/meta_server/meta_util.h`, `src/meta_server/schema_manager.cpp`,
`src/meta_server/table_manager.cpp`.

Not modelled: the regions of a partition, resource tags, pre-split keys, dynamic partitions, the
`std::sort` calls with a comparator that is not strict (the model sorts by insertion).
-/

namespace BaikalDB.Part

/-- `pb::RangePartitionType`: `RPT_DEFAULT`, `RPT_NEW_StatsEngine`, `RPT_ADDITIONAL`. -/
inductive RType
  | dflt
  | newStats
  | additional
  deriving DecidableEq

/-- A bound of a range: a value of the partition column or `MAXVALUE` (`include/common/expr_value.h`
L892-902). Partition columns are integers, `DATE` or `DATETIME`
(`src/meta_server/schema_manager.cpp` L1419), all compared as integers. -/
inductive Bound
  | num (n : Int)
  | max
  deriving DecidableEq

/-- A value handed to the partition functions: `NULL`, a value of the column, or a text that was
not cast (the literal part of a `LIKE`). -/
inductive Val
  | null
  | num (n : Int)
  | str (s : List Char)
  deriving DecidableEq

/-- `ExprValue::compare` of two integers, as a sign (`include/common/expr_value.h` L906-927). -/
def sgn (a b : Int) : Int := if a < b then -1 else if b < a then 1 else 0

/-- `partition_utils::compare` on two bounds (`src/meta_server/meta_util.cpp` L9-24). -/
def cmpBB : Bound → Bound → Int
  | .max, .max => 0
  | .max, .num _ => 1
  | .num _, .max => -1
  | .num a, .num b => sgn a b

/-- `ExprValue::compare` of a value with a bound (`include/common/expr_value.h` L892-942): a text is
compared with the empty text member of a number. -/
def cmpVB : Val → Bound → Int
  | _, .max => -1
  | .null, .num _ => -1
  | .num a, .num b => sgn a b
  | .str s, .num _ => if s.isEmpty then 0 else 1

/-- `pb::RangePartitionInfo` as kept in the schema. -/
structure PInfo where
  ptype : RType
  name : String
  id : Int
  left : Bound
  right : Bound
  cold : Bool
  deriving DecidableEq

/-- `pb::PartitionInfo` of a range partitioned table. `expr = none`: the table is partitioned by a
column. `isolation`: the date of the dynamic partition attribute. -/
structure Schema where
  parts : List PInfo
  maxId : Int
  primary : RType
  isolation : Option Int
  expr : Option (Val → Val)

/-- What the partition functions read of `UserInfo`: the two account settings and whether the
table is among `switch_tables`. -/
structure User where
  additional : Bool
  req : RType
  switch : Bool

/-- `Range::is_isolation` (`src/common/schema_factory.cpp` L3696-3703). -/
def isIsolated (s : Schema) (p : PInfo) : Bool :=
  match s.isolation with
  | none => false
  | some d => decide (cmpBB p.right (.num d) ≤ 0)

/-- `_ranges` (`src/common/schema_factory.cpp` L3704-3708). -/
def ranges (s : Schema) : List PInfo := s.parts.filter fun p => decide (p.ptype ≠ .additional)

/-- `_additional_ranges` (`src/common/schema_factory.cpp` L3704-3705). -/
def adds (s : Schema) : List PInfo := s.parts.filter fun p => decide (p.ptype = .additional)

/-- `RangePartition::is_specified_range` (`include/common/schema_factory.h` L907-925). -/
def isSpecified (s : Schema) (rt : RType) (sw : Bool) (p : PInfo) : Bool :=
  if !p.cold then
    if sw && isIsolated s p then decide (p.ptype = s.primary)
    else decide (rt = p.ptype)
  else true

/-- The requested type (`include/common/schema_factory.h` L546-563): `none` is the refusal of a
write to a switched table. -/
def reqOf (u : User) (read : Bool) : Option RType :=
  if u.switch then
    if !read then none
    else some (if u.req = .dflt then .newStats else .dflt)
  else some u.req

/-- `_range_expr->get_value(value)` (`include/expr/slot_ref.h` L41-43 for a column). -/
def evalExpr (s : Schema) (v : Val) : Val :=
  match s.expr with
  | none => v
  | some g => g v

/-- The test of a value against a range (`include/common/schema_factory.h` L570-571). -/
def coversB (v : Val) (p : PInfo) : Bool :=
  decide (0 ≤ cmpVB v p.left) && decide (cmpVB v p.right < 0)

/-- A loop from `rbegin` to `rend` (`include/common/schema_factory.h` L569-575). -/
def findBack (l : List PInfo) (v : Val) : Option Int := (l.reverse.find? (coversB v)).map (·.id)

/-- `RangePartition::calc_partition` (`include/common/schema_factory.h` L537-609): the id returned
(`none` for `-1`) and `another_partition_id`. -/
def calcPartition (s : Schema) (u : User) (v : Val) (read : Bool) : Option Int × Option Int :=
  match reqOf u read with
  | none => (none, none)
  | some rt =>
    if u.additional then (findBack (adds s) (evalExpr s v), none)
    else
      let p := findBack ((ranges s).filter (isSpecified s rt u.switch)) (evalExpr s v)
      if read then
        match p with
        | none => (findBack (adds s) (evalExpr s v), none)
        | some i => (some i, findBack (adds s) (evalExpr s v))
      else (p, none)

/-- The partition of a row that is written (`src/common/schema_factory.cpp` L3315-3322): `none` is
the refusal `Fail to cal_partition`. -/
def writePartition (s : Schema) (u : User) (v : Val) : Option Int := (calcPartition s u v false).1

/-- `std::set::emplace`; the order of the ids is not modelled. -/
def insertId (ids : List Int) (i : Int) : List Int := if ids.contains i then ids else ids ++ [i]

/-- A loop of `emplace`. -/
def insertAll (ids : List Int) (l : List PInfo) : List Int :=
  l.foldl (fun a p => insertId a p.id) ids

/-- `range_match_fn` (`include/common/schema_factory.h` L650-671); `left_open` is not used by the
code. -/
def rangeMatch (left right : Val) (ropen : Bool) (p : PInfo) : Bool :=
  if left ≠ .null ∧ cmpVB left p.right ≥ 0 then false
  else if right ≠ .null then
    if ropen then !decide (cmpVB right p.left ≤ 0) else !decide (cmpVB right p.left < 0)
  else true

/-- `RangePartition::calc_partitions` (`include/common/schema_factory.h` L610-705), from an empty
set; `none` is an error. -/
def calcPartitions (s : Schema) (u : User) (left right : Val) (ropen read : Bool) :
    Option (List Int) :=
  match s.expr with
  | some _ => some (insertAll [] (ranges s))
  | none =>
    match reqOf u read with
    | none => none
    | some rt =>
      if u.additional then some (insertAll [] ((adds s).filter (rangeMatch left right ropen)))
      else
        let a := insertAll []
          (((ranges s).filter (isSpecified s rt u.switch)).filter (rangeMatch left right ropen))
        if read then some (insertAll a ((adds s).filter (rangeMatch left right ropen)))
        else some a

/-- `RangePartition::get_specified_partition_ids` (`include/common/schema_factory.h` L740-784). -/
def specifiedIds (s : Schema) (u : User) (read : Bool) : Option (List Int) :=
  match reqOf u read with
  | none => none
  | some rt =>
    if u.additional then some (insertAll [] (adds s))
    else
      let a := insertAll [] ((ranges s).filter (isSpecified s rt u.switch))
      if read then some (insertAll a (adds s)) else some a

/-! ## The conditions on the partition column -/

/-- The comparison of a condition. -/
inductive Cmp
  | eq
  | ge
  | gt
  | le
  | lt
  deriving DecidableEq

/-- What `LikePredicate::hit_index` says of a pattern (`src/expr/predicate.cpp` L485-507): no
wildcard, a literal prefix, or neither. -/
inductive LikeKind
  | eq
  | pre
  | other
  deriving DecidableEq

/-- A conjunct of the `WHERE`. Constants are already of the type of the column
(`src/expr/scalar_fn_call.cpp` L58-79, `src/physical_plan/index_selector.cpp` L548) and not `NULL`.
`like c k s h`: column `c` is compared with a pattern of kind `k` and literal part `s`; `h` says
which values of the column the pattern accepts. `other`: a condition that sets no range. -/
inductive Cond
  | cmp (c : Nat) (op : Cmp) (v : Int)
  | inl (c : Nat) (vs : List Int)
  | rowCmp (fs : List Nat) (op : Cmp) (vs : List Int)
  | rowIn (fs : List Nat) (ts : List (List Int))
  | like (c : Nat) (k : LikeKind) (s : List Char) (h : Int → Bool)
  | other

/-- `RangeType` (`include/common/range.h` L23-36), the values the modelled conditions set. -/
inductive RT
  | none
  | range
  | eq
  | like
  | likeEq
  | likePrefix
  | inn
  deriving DecidableEq

/-- `FieldRange` (`include/common/range.h` L38-53). -/
structure FieldRange where
  type : RT := .none
  isRow : Bool := false
  leftOpen : Bool := false
  rightOpen : Bool := false
  left : List Int := []
  right : List Int := []
  eqIn : List Val := []

/-- `get_field_hit_type_weight` (`src/physical_plan/index_selector.cpp` L30-41). -/
def weight : RT → Nat
  | .eq => 10
  | .likeEq => 10
  | .inn => 9
  | .range => 5
  | .likePrefix => 5
  | _ => 0

/-- The reset of an entry of another type (`src/physical_plan/index_selector.cpp` L595-597). -/
def asRange (fr : FieldRange) : FieldRange := if fr.type ≠ .range then {} else fr

/-- A comparison of the column with a constant (`src/physical_plan/index_selector.cpp`
L570-624). -/
def hitCmp (fr : FieldRange) (op : Cmp) (v : Int) : FieldRange :=
  match op with
  | .eq => if weight fr.type > weight .eq then fr else { type := .eq, eqIn := [.num v] }
  | .ge | .gt =>
    if weight fr.type > weight .range then fr
    else if (asRange fr).left ≠ [] then asRange fr
    else { asRange fr with left := [v], leftOpen := decide (op = .gt), type := .range }
  | .le | .lt =>
    if weight fr.type > weight .range then fr
    else if (asRange fr).right ≠ [] then asRange fr
    else { asRange fr with right := [v], rightOpen := decide (op = .lt), type := .range }

/-- `IN` with a list of constants (`src/physical_plan/index_selector.cpp` L629-653). -/
def hitIn (fr : FieldRange) (vs : List Int) : FieldRange :=
  if fr.type = .none ∨
      ((fr.type = .eq ∨ fr.type = .inn) ∧ fr.isRow = false ∧ vs.length < fr.eqIn.length) then
    if weight fr.type > weight .inn then fr
    else { type := if vs.length = 1 then .eq else .inn, eqIn := vs.map .num }
  else fr

/-- A row comparison whose first column is the partition column
(`src/physical_plan/index_selector.cpp` L285-339). -/
def hitRowCmp (fr : FieldRange) (op : Cmp) (vs : List Int) : FieldRange :=
  match op with
  | .eq => fr
  | .ge | .gt =>
    if fr.left ≠ [] then fr
    else if weight fr.type > weight .range then fr
    else { asRange fr with left := vs, leftOpen := decide (op = .gt), type := .range, isRow := true }
  | .le | .lt =>
    if fr.right ≠ [] then fr
    else if weight fr.type > weight .range then fr
    else
      { asRange fr with right := vs, rightOpen := decide (op = .lt), type := .range, isRow := true }

/-- One column of a row equality (`src/physical_plan/index_selector.cpp` L274-283). -/
def hitRowEq (f : Nat) (m : Option FieldRange) (cv : Nat × Int) : Option FieldRange :=
  if cv.1 = f then
    some { m.getD {} with eqIn := [.num cv.2], type := .eq, isRow := true }
  else m

/-- One column of a row `IN` (`src/physical_plan/index_selector.cpp` L344-362). -/
def hitRowIn (f : Nat) (m : Option FieldRange) (cv : Nat × List Int) : Option FieldRange :=
  if cv.1 = f then
    if (m.getD {}).type ≠ .none ∧ (m.getD {}).eqIn.length ≤ cv.2.length then some (m.getD {})
    else some { m.getD {} with
      eqIn := cv.2.map .num, type := if cv.2.length = 1 then .eq else .inn, isRow := true }
  else m

/-- `values[idx]` for every column of the row (`src/physical_plan/index_selector.cpp` L241-259). -/
def columns : List Nat → List (List Int) → List (Nat × List Int)
  | [], _ => []
  | c :: fs, ts => (c, ts.filterMap List.head?) :: columns fs (ts.map List.tail)

/-- `LIKE` (`src/physical_plan/index_selector.cpp` L676-713): the literal part of the pattern goes
to `eq_in_values` as a text, for `=` and for a prefix. -/
def hitLike (fr : FieldRange) (k : LikeKind) (s : List Char) : FieldRange :=
  match k with
  | .eq => if weight fr.type > weight .likeEq then fr else { type := .likeEq, eqIn := [.str s] }
  | .pre =>
    if weight fr.type > weight .likePrefix then fr else { type := .likePrefix, eqIn := [.str s] }
  | .other => if weight fr.type > weight .like then fr else { type := .like }

/-- `hit_field_range` for the entry of field `f` (`src/physical_plan/index_selector.cpp` L515-720):
`none` is no entry in the map. -/
def hit (f : Nat) (m : Option FieldRange) : Cond → Option FieldRange
  | .other => m
  | .cmp c op v => if c = f then some (hitCmp (m.getD {}) op v) else m
  | .inl c vs => if c = f ∧ vs ≠ [] then some (hitIn (m.getD {}) vs) else m
  | .rowCmp fs .eq vs => (fs.zip vs).foldl (hitRowEq f) m
  | .rowCmp fs op vs => if fs.head? = some f then some (hitRowCmp (m.getD {}) op vs) else m
  | .rowIn fs ts => if ts = [] then m else (columns fs ts).foldl (hitRowIn f) m
  | .like c k s _ => if c = f then some (hitLike (m.getD {}) k s) else m

/-- The loop over the conjuncts (`src/physical_plan/index_selector.cpp` L797-816). -/
def hitAll (f : Nat) (cs : List Cond) : Option FieldRange := cs.foldl (hit f) none

/-- The head of a list of bounds as a value, `NULL` if there is none
(`src/physical_plan/index_selector.cpp` L1099-1106). -/
def headVal : List Int → Val
  | [] => .null
  | x :: _ => .num x

/-- One value of an equality (`src/physical_plan/index_selector.cpp` L1074-1090). -/
def addValue (s : Schema) (u : User) (read : Bool) (ids : List Int) (v : Val) : List Int :=
  match calcPartition s u v read with
  | (none, _) => ids
  | (some i, none) => insertId ids i
  | (some i, some j) => insertId (insertId ids i) j

/-- `select_partition` of a range partitioned table (`src/physical_plan/index_selector.cpp`
L1058-1121): the ids of the partitions that are read, `none` is an error. -/
def selectRange (s : Schema) (u : User) (read : Bool) (f : Nat) (cs : List Cond) :
    Option (List Int) :=
  match hitAll f cs with
  | none => specifiedIds s u read
  | some fr =>
    if fr.eqIn ≠ [] then some (fr.eqIn.foldl (addValue s u read) [])
    else calcPartitions s u (headVal fr.left) (headVal fr.right)
      (if fr.right = [] then false else fr.rightOpen) read

/-! ## Hash partitions -/

/-- A hash partitioned table: the number of partitions, whether the value that is hashed is a
number, the hash of other values, and the expression. -/
structure HashTable where
  num : Int
  numeric : Bool
  hash : Val → Nat
  expr : Val → Val

/-- `HashPartition::calc_partition` (`src/common/schema_factory.cpp` L3567-3581): `%` of the
language truncates. `NULL` and texts are not numbers. -/
def calcHash (t : HashTable) (v : Val) : Int :=
  match t.expr v with
  | .num n => if t.numeric then Int.tmod n t.num else (t.hash (.num n) : Int) % t.num
  | w => (t.hash w : Int) % t.num

/-- The partition of a row that is written (`src/common/schema_factory.cpp` L3315-3322). -/
def writeHash (t : HashTable) (v : Val) : Option Int :=
  if calcHash t v < 0 then none else some (calcHash t v)

/-- The values of an equality, one after another (`src/physical_plan/index_selector.cpp`
L1039-1048): an id below zero is an error. -/
def addHash (t : HashTable) : List Int → List Val → Option (List Int)
  | ids, [] => some ids
  | ids, v :: vs => if calcHash t v < 0 then none else addHash t (insertId ids (calcHash t v)) vs

/-- All partitions (`src/physical_plan/index_selector.cpp` L1053-1055). -/
def allHash (t : HashTable) : List Int := (List.range t.num.toNat).map Int.ofNat

/-- `select_partition` of a hash partitioned table (`src/physical_plan/index_selector.cpp`
L1029-1057); a node reads partition 0 when nothing is set (`include/exec/exec_node.h` L513). -/
def selectHash (t : HashTable) (f : Nat) (cs : List Cond) : Option (List Int) :=
  match hitAll f cs with
  | none => some (allHash t)
  | some fr =>
    if (fr.type = .eq ∨ fr.type = .inn ∨ fr.type = .likeEq) ∧ fr.eqIn ≠ [] then
      if t.num ≠ 1 then addHash t [] fr.eqIn else some [0]
    else some (allHash t)

/-! ## The meta server -/

/-- How a partition of a statement gives its range: `VALUES LESS THAN (b)` or `VALUES [(l), (r))`. -/
inductive PBound
  | less (b : Bound)
  | range (l r : Bound)

/-- A partition of `CREATE TABLE` or `ADD PARTITION`. -/
structure PSpec where
  name : String
  ptype : RType
  cold : Bool
  bound : PBound

/-- The least and the greatest value of the type of the column (`src/meta_server/meta_util.cpp`
L138-212). -/
structure ColType where
  lo : Int
  hi : Int

/-- `check_partition_expr` for a lower bound (`src/meta_server/meta_util.cpp` L66-120). -/
def checkLower (ct : ColType) : Bound → Bool
  | .max => true
  | .num a => !(decide (a < ct.lo) || decide (a ≥ ct.hi))

/-- `check_partition_expr` for an upper bound (`src/meta_server/meta_util.cpp` L66-120). -/
def checkUpper (ct : ColType) : Bound → Bool
  | .max => true
  | .num a => !(decide (a ≤ ct.lo) || decide (a > ct.hi))

/-- `check_range_partition_info` (`src/meta_server/meta_util.cpp` L268-290). -/
def checkBound (ct : ColType) : PBound → Bool
  | .less b => checkUpper ct b
  | .range l r => checkLower ct l && checkUpper ct r && decide (cmpBB l r < 0)

/-- `partition_utils::min` (`src/meta_server/meta_util.cpp` L26-31). -/
def minB (a b : Bound) : Bound := if cmpBB a b ≤ 0 then a else b

/-- `partition_utils::max` (`src/meta_server/meta_util.cpp` L33-38). -/
def maxB (a b : Bound) : Bound := if cmpBB a b ≤ 0 then b else a

/-- `is_specified_partition` (`include/meta_server/meta_util.h` L119-135). -/
def isSpecifiedPartition (p q : PInfo) : Bool :=
  if p.ptype = .additional ∨ q.ptype = .additional then decide (p.ptype = q.ptype)
  else if !p.cold && !q.cold && decide (p.ptype ≠ q.ptype) then false
  else true

/-- `check_partition_overlapped` (`src/meta_server/meta_util.cpp` L350-370). -/
def overlapped (l : List PInfo) (q : PInfo) : Bool :=
  l.any fun p =>
    if p.name = q.name then false
    else if !isSpecifiedPartition p q then false
    else decide (cmpBB (maxB p.left q.left) (minB p.right q.right) < 0)

/-- `PointerRangeComparator` (`include/meta_server/meta_util.h` L150-164); types compare by their
number. -/
def typeNo : RType → Nat
  | .dflt => 0
  | .newStats => 1
  | .additional => 2

/-- `PointerRangeComparator` (`include/meta_server/meta_util.h` L150-164). -/
def ptrLe (p q : PInfo) : Bool :=
  if cmpBB p.right q.right = 0 then decide (typeNo p.ptype ≤ typeNo q.ptype)
  else decide (cmpBB p.right q.right < 0)

/-- `RangeComparator` (`include/meta_server/meta_util.h` L138-147). -/
def rightLe (p q : PInfo) : Bool := decide (cmpBB p.right q.right ≤ 0)

/-- Insertion of a partition in front of the first one it goes before; stands for `std::sort`. -/
def insertBy (le : PInfo → PInfo → Bool) (p : PInfo) : List PInfo → List PInfo
  | [] => [p]
  | q :: l => if le p q then p :: q :: l else q :: insertBy le p l

/-- Stands for `std::sort` (`src/meta_server/schema_manager.cpp` L1492, L1561). -/
def sortBy (le : PInfo → PInfo → Bool) : List PInfo → List PInfo
  | [] => []
  | p :: l => insertBy le p (sortBy le l)

/-- `convert_to_partition_range` (`src/meta_server/meta_util.cpp` L408-440): with
`VALUES LESS THAN` the range starts at the least value of the type. -/
def convert (ct : ColType) (p : PSpec) (id : Int) : PInfo :=
  match p.bound with
  | .less b => ⟨p.ptype, p.name, id, .num ct.lo, b, p.cold⟩
  | .range l r => ⟨p.ptype, p.name, id, l, r, p.cold⟩

/-- `has_range` after the conversion. -/
def specBound (ct : ColType) (p : PSpec) : PBound :=
  match p.bound with
  | .less b => .range (.num ct.lo) b
  | .range l r => .range l r

/-- The loop of `add_partition` (`src/meta_server/table_manager.cpp` L1469-1537): the names seen,
the partitions and the last id. `dyn` is `is_dynamic_change`. -/
def addLoop (ct : ColType) (dyn : Bool) :
    List String → List PInfo → Int → List PSpec → Option (List PInfo × Int)
  | _, parts, id, [] => some (parts, id)
  | names, parts, id, p :: ps =>
    if names.contains p.name then
      if dyn then addLoop ct dyn names parts id ps else none
    else if !checkBound ct (specBound ct p) then none
    else if overlapped parts (convert ct p (id + 1)) then
      if dyn then addLoop ct dyn (p.name :: names) parts id ps else none
    else addLoop ct dyn (p.name :: names) (parts ++ [convert ct p (id + 1)]) (id + 1) ps

/-- `TableManager::add_partition` (`src/meta_server/table_manager.cpp` L1391-1743): `none` is a
refusal, which changes nothing. -/
def addPartition (ct : ColType) (s : Schema) (dyn : Bool) (ps : List PSpec) : Option Schema :=
  match addLoop ct dyn (s.parts.map (·.name)) s.parts s.maxId ps with
  | none => none
  | some (parts, id) => some { s with parts := sortBy ptrLe parts, maxId := id }

/-- The ids of the names of `DROP PARTITION` (`src/meta_server/table_manager.cpp` L6497-6520). -/
def dropIds (s : Schema) (dyn : Bool) : List String → Option (List Int)
  | [] => some []
  | n :: ns =>
    match s.parts.find? (fun p => decide (p.name = n)) with
    | some p => (dropIds s dyn ns).map (p.id :: ·)
    | none => if dyn then dropIds s dyn ns else none

/-- `drop_partition_internal` (`src/meta_server/table_manager.cpp` L6484-6596) with
`remove_partitions` (L6441-6465). -/
def dropPartition (s : Schema) (dyn : Bool) (names : List String) : Option Schema :=
  match dropIds s dyn names with
  | none => none
  | some ids =>
    let parts := s.parts.filter fun p => !ids.contains p.id
    if names ≠ [] ∧ parts = [] then none
    else if parts.any (overlapped parts) then none
    else some { s with parts := parts }

/-- `i - 1`'s right value is the left value of `i` (`src/meta_server/schema_manager.cpp`
L1494-1520). -/
def chain (prev : Bound) : List PInfo → List PInfo
  | [] => []
  | p :: l => { p with left := prev } :: chain p.right l

/-- Whether a partition is given by `VALUES LESS THAN`. -/
def isLess (p : PSpec) : Bool :=
  match p.bound with
  | .less _ => true
  | .range _ _ => false

/-- The partitions of one type (`src/meta_server/schema_manager.cpp` L1458-1535): those with
`LESS THAN` in order of their bounds, then those with a range. -/
def group (ct : ColType) (ps : List PSpec) (t : RType) : List PInfo :=
  let g := ps.filter fun p => decide (p.ptype = t)
  chain (.num ct.lo) (sortBy rightLe ((g.filter isLess).map (convert ct · 0))) ++
    (g.filter fun p => !isLess p).map (convert ct · 0)

/-- The overlap loop of `CREATE TABLE` (`src/meta_server/schema_manager.cpp` L1537-1552). -/
def createLoop : List PInfo → List PInfo → Option (List PInfo)
  | parts, [] => some parts
  | parts, q :: l => if overlapped parts q then none else createLoop (parts ++ [q]) l

/-- Ids by position (`src/meta_server/schema_manager.cpp` L1565-1569). -/
def number : Int → List PInfo → List PInfo
  | _, [] => []
  | i, p :: l => { p with id := i } :: number (i + 1) l

/-- No name twice (`src/meta_server/schema_manager.cpp` L1441-1446). -/
def namesUnique : List String → Bool
  | [] => true
  | n :: ns => !ns.contains n && namesUnique ns

/-- `CREATE TABLE ... PARTITION BY RANGE` (`src/meta_server/schema_manager.cpp` L1429-1579). The
groups come from an unordered map; the model takes them in the order of the types. -/
def create (ct : ColType) (primary : RType) (isolation : Option Int) (expr : Option (Val → Val))
    (ps : List PSpec) : Option Schema :=
  if !namesUnique (ps.map (·.name)) then none
  else if !ps.all (fun p => checkBound ct p.bound) then none
  else
    match createLoop [] (group ct ps .dflt ++ group ct ps .newStats ++ group ct ps .additional) with
    | none => none
    | some parts =>
      if parts = [] then none
      else some ⟨number 0 (sortBy ptrLe parts), parts.length - 1, primary, isolation, expr⟩

/-- A statement on the partitions of a table. -/
inductive Op
  | add (dyn : Bool) (ps : List PSpec)
  | drop (dyn : Bool) (names : List String)

/-- One statement: a refusal changes nothing. -/
def step (ct : ColType) (s : Schema) : Op → Schema
  | .add dyn ps => (addPartition ct s dyn ps).getD s
  | .drop dyn names => (dropPartition s dyn names).getD s

end BaikalDB.Part
