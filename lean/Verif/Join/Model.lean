import Verif.Pred.Model
import Verif.KeyEnc.Model
/-!
# Row-mode joins and correlated subqueries

Model of src/exec/joiner.cpp, src/exec/join_node.cpp and src/exec/apply_node.cpp on rows (the Arrow execution is not
modelled).  A driving ("outer") row is an element of `α`, a row of the other side an element of `β`; RIGHT JOIN is LEFT
JOIN with the children exchanged (src/exec/join_node.cpp L1124-1129).  A result row is `(o, some i)`, or `(o, none)` when
the columns of the inner side are left NULL.
-/
namespace BaikalDB.Join
open BaikalDB.Expr (VTy EV)

/-! ## Keys -/

/-- The conversions left abstract: those of `Pred.Env`, and `snprintf("%.12g")` of a double. -/
structure Env extends Pred.Env where
  dblStr : BitVec 64 → Bytes

/-- A pair of columns equated by the ON clause: type on the outer and on the inner side
(src/exec/joiner.cpp L82-103). -/
structure Pair where
  oty : VTy
  ity : VTy
deriving DecidableEq, Repr

/-- `is_signed(type)` of include/common/type_utils.h L186-198. -/
def isSigned : VTy → Bool
  | .int8 | .int16 | .int32 | .int64 => true
  | _ => false

/-- src/exec/joiner.cpp L191-217: the type under which the two columns meet in the hash map
(`join_key_cast_like_mysql` is off by default). -/
def castTy (p : Pair) : VTy :=
  if p.oty = p.ity then p.oty
  else if isSigned p.oty && isSigned p.ity then .int64
  else if p.oty.isUint && p.ity.isUint then .uint64
  else .string

/-- The types `MutTableKey::append_value` (include/common/mut_table_key.h L167-199) knows; NULL, HEX, JSON and the
others append nothing. -/
def toP : VTy → KeyEnc.PType
  | .bool => .bool | .int8 => .int8 | .int16 => .int16 | .int32 => .int32 | .int64 => .int64
  | .uint8 => .uint8 | .uint16 => .uint16 | .uint32 => .uint32 | .uint64 => .uint64
  | .float => .float | .double => .double | .string => .string
  | .datetime => .datetime | .timestamp => .timestamp | .date => .date | .time => .time
  | _ => .other

/-- include/common/mut_table_key.h L167-199: `append_value`. -/
def appendEV (k : Bytes) (v : EV) : Bytes := KeyEnc.appendValue k (toP v.ty) v.u v.s

/-- src/exec/joiner.cpp L608-622: `encode_hash_key`. -/
def encodeHashKey (E : Env) : List VTy → List EV → Bytes → Bytes
  | t :: ts, v :: vs, k => encodeHashKey E ts vs (appendEV k (Pred.cast E.toEnv v t))
  | [], v :: vs, k => encodeHashKey E [] vs (appendEV k (Pred.cast E.toEnv v .string))
  | _, [], k => k

/-! ## The filter put on the inner side -/

/-- include/exec/joiner.h L30-43: `ExprValueVec::operator==`; `a` is the one stored, `b` the new one. -/
def eqVec (a b : List EV) : Bool :=
  decide (a.length = b.length) && (List.zipWith (fun x y => decide (Expr.compare y x = 0)) a b).all id

/-- `butil::FlatSet::insert`: an equal element in the same bucket keeps the new one out. -/
def setInsert (bucket : List EV → Nat) (s : List (List EV)) (v : List EV) : List (List EV) :=
  if s.any fun w => decide (bucket w = bucket v) && eqVec w v then s else s ++ [v]

/-- src/exec/joiner.cpp L561-573: `construct_equal_values`. -/
def equalValues (bucket : List EV → Nat) (vs : List (List EV)) : List (List EV) := vs.foldl (setInsert bucket) []

/-- include/common/expr_value.h L768-830: `get_int_string`. -/
def getIntString (E : Env) (v : EV) : Bytes :=
  match v.ty with
  | .bool => Expr.toStr (v.uget 8)
  | .int8 => Expr.toStr (v.sget 8)
  | .int16 => Expr.toStr (v.sget 16)
  | .int32 | .time => Expr.toStr (v.sget 32)
  | .int64 => Expr.toStr (v.sget 64)
  | .uint8 => Expr.toStr (v.uget 8)
  | .uint16 => Expr.toStr (v.uget 16)
  | .uint32 | .timestamp | .date => Expr.toStr (v.uget 32)
  | .uint64 | .datetime => Expr.toStr (v.uget 64)
  | .double => E.dblStr v.u
  | .string | .hex => v.s
  | _ => []

/-- src/expr/predicate.cpp L44-55: `make_key`; `none` when a component is NULL. -/
def rowKey (E : Env) : List VTy → List EV → Option Bytes
  | t :: ts, v :: vs =>
    if v.isNull then none
    else (rowKey E ts vs).map fun r => getIntString E (Pred.cast E.toEnv v t) ++ 0#8 :: r
  | _, _ => some []

/-- src/exec/joiner.cpp L448-559 and L308-315: the inner row passes the IN predicate built from the outer keys.  The
literals take the type of the inner column (src/expr/scalar_fn_call.cpp L62-81); src/expr/predicate.cpp L57-188. -/
def runtimeFilter (E : Env) (ps : List Pair) (outer : List (List EV)) (v : List EV) : Bool :=
  match ps with
  | [] => true
  | [p] =>
    outer.isEmpty ||
      (let x := Pred.inFn E.toEnv (Pred.inTy p.ity p.ity) (outer.map fun w => Pred.cast E.toEnv (w.headD Pred.nullV) p.ity) false
          (v.headD Pred.nullV)
       !x.isNull && Pred.truth E.toEnv x)
  | ps =>
    outer.isEmpty ||
      match rowKey E (ps.map fun p => Pred.inTy p.ity p.ity) v with
      | none => false
      | some k => (outer.filterMap fun w =>
          rowKey E (ps.map fun p => Pred.inTy p.ity p.ity) (List.zipWith (fun p x => Pred.cast E.toEnv x p.ity) ps w)).contains k

/-! ## Batches, limit, one pair of rows -/

/-- The join types. -/
inductive JTy where
  | inner | left | semi | anti
deriving DecidableEq, Repr

/-- What a join node is configured with.  `sat` is `is_satisfy_filter` (src/exec/joiner.cpp L598-606) on the combined row:
every condition that is not a column equality is true; `cap` is the capacity of a row batch (1024). -/
structure Cfg (α β : Type) where
  ty : JTy
  okey : α → Bytes
  ikey : β → Bytes
  sat : α → β → Bool
  cap : Nat
  limit : Option Nat
  useHash : Bool

abbrev Row (α β : Type) := α × Option β

variable {α β : Type}

/-- include/exec/exec_node.h L311-313: `reached_limit`. -/
def Cfg.reached (c : Cfg α β) (num : Nat) : Bool :=
  match c.limit with
  | none => false
  | some l => decide (l ≤ num)

/-- include/runtime/row_batch.h L49-51: `is_full`. -/
def Cfg.full (c : Cfg α β) (out : List (Row α β)) : Bool := decide (c.cap ≤ out.length)

/-- src/exec/joiner.cpp L633-685: `construct_result_batch`: the rows added to the batch, and `matched`. -/
def construct (c : Cfg α β) (o : α) (i : β) : List (Row α β) × Bool :=
  match c.ty with
  | .inner | .semi => if c.sat o i then ([(o, some i)], true) else ([], false)
  | .left => if c.sat o i then ([(o, some i)], true) else if c.useHash then ([(o, none)], false) else ([], false)
  | .anti => ([], c.sat o i)

/-- `_hash_map`: key to rows. -/
abbrev HMap (ρ : Type) := List (Bytes × List ρ)

/-- `_hash_map[key].emplace_back(row)` (src/exec/joiner.cpp L629). -/
def HMap.push {ρ : Type} (k : Bytes) (r : ρ) : HMap ρ → HMap ρ
  | [] => [(k, [r])]
  | (k', rs) :: m => if k' = k then (k', rs ++ [r]) :: m else (k', rs) :: HMap.push k r m

/-- `_hash_map.seek(key)`. -/
def HMap.seek {ρ : Type} (k : Bytes) : HMap ρ → Option (List ρ)
  | [] => none
  | (k', rs) :: m => if k' = k then some rs else HMap.seek k m

/-- src/exec/joiner.cpp L624-631: `construct_hash_map`. -/
def buildMap {ρ : Type} (key : ρ → Bytes) (rows : List ρ) : HMap ρ := rows.foldl (fun m r => m.push (key r) r) []

/-- Why a scan returned. -/
inductive Stop where
  | limit | full
deriving DecidableEq, Repr

/-- What a scan leaves behind: `stop` (with the index reached) or not, the batch, and `_num_rows_returned`. -/
structure Scan (α β : Type) where
  stop : Option (Stop × Nat)
  out : List (Row α β)
  num : Nat

/-! ## INNER JOIN with a hash map over the outer rows -/

/-- src/exec/join_node.cpp L1301-1320: one inner row against the outer rows of its bucket from index `idx`. -/
def scanOuters (c : Cfg α β) (i : β) : List α → Nat → List (Row α β) → Nat → Scan α β
  | [], _, out, num => ⟨none, out, num⟩
  | o :: os, idx, out, num =>
    if c.reached num then ⟨some (.limit, idx), out, num⟩
    else if c.full out then ⟨some (.full, idx), out, num⟩
    else scanOuters c i os (idx + 1) (out ++ (construct c o i).1) (if (construct c o i).2 then num + 1 else num)

/-- State between two calls: the inner child's batches to come, what is left of `_inner_row_batch`, `_result_row_index`,
`_num_rows_returned`. -/
structure HIState (β : Type) where
  more : List (List β)
  cur : List β
  idx : Nat
  num : Nat
deriving DecidableEq

/-- src/exec/join_node.cpp L1296-1323: the rows of the current inner batch. -/
def hiRows (c : Cfg α β) (m : HMap α) : List β → Nat → List (Row α β) → Nat → Scan α β × List β
  | [], _, out, num => (⟨none, out, num⟩, [])
  | i :: is, idx, out, num =>
    let r := scanOuters c i (((m.seek (c.ikey i)).getD []).drop idx) idx out num
    match r.stop with
    | some _ => (r, i :: is)
    | none => hiRows c m is 0 r.out r.num

/-- src/exec/join_node.cpp L1277-1326: `get_next_for_hash_inner_join`.  The next state is `none` when `*eos` is set. -/
def hiLoop (c : Cfg α β) (m : HMap α) : List (List β) → List β → Nat → List (Row α β) → Nat → List (Row α β) × Option (HIState β)
  | more, cur, idx, out, num =>
    let r := hiRows c m cur idx out num
    match r.1.stop with
    | some (.limit, _) => (r.1.out, none)
    | some (.full, k) => (r.1.out, some ⟨more, r.2, k, r.1.num⟩)
    | none =>
      match more with
      | [] => (r.1.out, none)
      | b :: bs => hiLoop c m bs b 0 r.1.out r.1.num

def hiNext (c : Cfg α β) (m : HMap α) (s : HIState β) : List (Row α β) × Option (HIState β) :=
  hiLoop c m s.more s.cur s.idx [] s.num

/-! ## LEFT JOIN with a hash map over the inner rows -/

/-- src/exec/join_node.cpp L1232-1251: one outer row against the inner rows of its bucket; every pair counts as a row
("match=false adds a NULL row"). -/
def scanInners (c : Cfg α β) (o : α) : List β → Nat → List (Row α β) → Nat → Scan α β
  | [], _, out, num => ⟨none, out, num⟩
  | i :: is, idx, out, num =>
    if c.reached num then ⟨some (.limit, idx), out, num⟩
    else if c.full out then ⟨some (.full, idx), out, num⟩
    else scanInners c o is (idx + 1) (out ++ (construct c o i).1) (num + 1)

/-- State between two calls: outer rows left (the first one is `*_outer_iter`), `_result_row_index`, rows returned. -/
structure HOState (α : Type) where
  os : List α
  idx : Nat
  num : Nat
deriving DecidableEq

/-- src/exec/join_node.cpp L1220-1275: `get_next_for_hash_outer_join`. -/
def hoLoop (c : Cfg α β) (m : HMap β) : List α → Nat → List (Row α β) → Nat → List (Row α β) × Option (HOState α)
  | [], _, out, _ => (out, none)
  | o :: os, idx, out, num =>
    match m.seek (c.okey o) with
    | some is =>
      let r := scanInners c o (is.drop idx) idx out num
      match r.stop with
      | some (.limit, _) => (r.out, none)
      | some (.full, k) => (r.out, some ⟨o :: os, k, r.num⟩)
      | none => hoLoop c m os 0 r.out r.num
    | none =>
      if c.reached num then (out, none)
      else if c.full out then (out, some ⟨o :: os, idx, num⟩)
      else hoLoop c m os 0 (out ++ [(o, none)]) (num + 1)

def hoNext (c : Cfg α β) (m : HMap β) (s : HOState α) : List (Row α β) × Option (HOState α) := hoLoop c m s.os s.idx [] s.num

/-! ## Nested loops (no column equality) -/

/-- What the scan of the inner rows leaves behind: `stop` and the inner rows not yet visited, `matched`, batch, count. -/
structure NScan (α β : Type) where
  stop : Option (Stop × List β)
  matched : Bool
  out : List (Row α β)
  num : Nat

/-- src/exec/join_node.cpp L1174-1197: one outer row against the inner rows from `_inner_iter`; `matched` is not reset
between inner rows, and every inner row visited after the first match counts as a row returned. -/
def nlScan (c : Cfg α β) (o : α) : List β → Bool → List (Row α β) → Nat → NScan α β
  | [], matched, out, num => ⟨none, matched, out, num⟩
  | i :: is, matched, out, num =>
    if c.reached num then ⟨some (.limit, i :: is), matched, out, num⟩
    else if c.full out then ⟨some (.full, i :: is), matched, out, num⟩
    else
      let matched' := matched || (construct c o i).2
      nlScan c o is matched' (out ++ (construct c o i).1) (if matched' then num + 1 else num)

/-- State between two calls: outer rows left, inner rows left for the first of them, rows returned.  `matched` is a local
variable of the call and is not kept. -/
structure NLState (α β : Type) where
  os : List α
  is : List β
  num : Nat
deriving DecidableEq

/-- src/exec/join_node.cpp L1164-1218: `get_next_for_nested_loop_join`; `inners` is `_inner_tuple_data`. -/
def nlLoop (c : Cfg α β) (inners : List β) : List α → List β → List (Row α β) → Nat → List (Row α β) × Option (NLState α β)
  | [], _, out, _ => (out, none)
  | o :: os, is, out, num =>
    let r := nlScan c o is false out num
    match r.stop with
    | some (.limit, _) => (r.out, none)
    | some (.full, is') => (r.out, some ⟨o :: os, is', r.num⟩)
    | none =>
      if r.matched = false ∧ c.ty = .left then nlLoop c inners os inners (r.out ++ [(o, none)]) (r.num + 1)
      else nlLoop c inners os inners r.out r.num

def nlNext (c : Cfg α β) (inners : List β) (s : NLState α β) : List (Row α β) × Option (NLState α β) :=
  nlLoop c inners s.os s.is [] s.num

/-! ## Correlated subqueries: SEMI over a hash map of the outer rows -/

/-- src/exec/apply_node.cpp L604-632: one inner row against the outer rows of its bucket: an outer row that matches leaves
the bucket.  The result: stopped or not, and the bucket afterwards (`kept` are the rows passed over). -/
def semiScan (c : Cfg α β) (i : β) : List α → List α → List (Row α β) → Nat → Option Stop × List α × List (Row α β) × Nat
  | kept, [], out, num => (none, kept, out, num)
  | kept, o :: os, out, num =>
    if c.reached num then (some .limit, kept ++ o :: os, out, num)
    else if c.full out then (some .full, kept ++ o :: os, out, num)
    else
      let r := construct c o i
      let num' := if r.2 then num + 1 else num
      if r.2 && decide (c.ty = .semi) then semiScan c i kept os (out ++ r.1) num'
      else semiScan c i (kept ++ [o]) os (out ++ r.1) num'

/-- Replace a bucket; an empty one is erased (src/exec/apply_node.cpp L625-628). -/
def HMap.set {ρ : Type} (k : Bytes) (rs : List ρ) : HMap ρ → HMap ρ
  | [] => []
  | (k', rs') :: m => if k' = k then (if rs.isEmpty then m else (k', rs) :: m) else (k', rs') :: HMap.set k rs m

/-- State between two calls: the map, the inner child's batches to come, what is left of the current one, the count. -/
structure SemiState (α β : Type) where
  map : HMap α
  more : List (List β)
  cur : List β
  num : Nat
deriving DecidableEq

/-- src/exec/apply_node.cpp L599-635: the rows of the current inner batch. -/
def semiRows (c : Cfg α β) : HMap α → List β → List (Row α β) → Nat →
    Option Stop × HMap α × List β × List (Row α β) × Nat
  | m, [], out, num => (none, m, [], out, num)
  | m, i :: is, out, num =>
    match m.seek (c.ikey i) with
    | none => semiRows c m is out num
    | some os =>
      let r := semiScan c i [] os out num
      let m' := m.set (c.ikey i) r.2.1
      match r.1 with
      | some s => (some s, m', i :: is, r.2.2.1, r.2.2.2)
      | none => semiRows c m' is r.2.2.1 r.2.2.2

/-- src/exec/apply_node.cpp L582-638: `get_next_via_outer_hash_map`. -/
def semiLoop (c : Cfg α β) : List (List β) → HMap α → List β → List (Row α β) → Nat → List (Row α β) × Option (SemiState α β)
  | more, m, cur, out, num =>
    let r := semiRows c m cur out num
    match r.1 with
    | some .limit => (r.2.2.2.1, none)
    | some .full => (r.2.2.2.1, some ⟨r.2.1, more, r.2.2.1, r.2.2.2.2⟩)
    | none =>
      match more with
      | [] => (r.2.2.2.1, none)
      | b :: bs => semiLoop c bs r.2.1 b r.2.2.2.1 r.2.2.2.2

def semiNext (c : Cfg α β) (s : SemiState α β) : List (Row α β) × Option (SemiState α β) :=
  semiLoop c s.more s.map s.cur [] s.num

/-- State between two calls when the parent has a limit: the map of the current chunk of outer rows, the inner rows left for
it, the outer rows left, `_loops`, the count. -/
structure LoopState (α β : Type) where
  map : HMap α
  cur : List β
  os : List α
  loops : Nat
  num : Nat
deriving DecidableEq

/-- src/exec/apply_node.cpp L670-712: the inner rows of the current chunk; the end of a chunk returns the batch as it is,
without `*eos`. -/
def loopGo (c : Cfg α β) (s : LoopState α β) : List (Row α β) × Option (LoopState α β) :=
  let r := semiRows c s.map s.cur [] s.num
  match r.1 with
  | some .limit => (r.2.2.2.1, none)
  | some .full | none => (r.2.2.2.1, some ⟨r.2.1, r.2.2.1, s.os, s.loops, r.2.2.2.2⟩)

/-- src/exec/apply_node.cpp L640-713: `get_next_via_loop_outer_hash_map`; `fetch chunk` are the inner rows fetched for a chunk
of outer rows (src/exec/joiner.cpp L417-446).  Simplified: the chunk sizes (include/exec/apply_node.h L63-65) do not
overflow an int. -/
def loopNext (c : Cfg α β) (fetch : List α → List β) (plimit : Nat) (s : LoopState α β) :
    List (Row α β) × Option (LoopState α β) :=
  if s.cur.isEmpty then
    if s.os.isEmpty then ([], none)
    else
      let n := plimit * 2 ^ s.loops
      loopGo c ⟨buildMap c.okey (s.os.take n), fetch (s.os.take n), s.os.drop n, s.loops + 1, s.num⟩
  else loopGo c s

/-! ## Correlated subqueries: LEFT and ANTI over a hash map of the inner rows -/

/-- src/exec/apply_node.cpp L519-545: one outer row against the inner rows of its bucket; ANTI stops at the first match. -/
def applyScan (c : Cfg α β) (o : α) : List β → Nat → Bool → List (Row α β) → Nat → Scan α β × Bool
  | [], _, has, out, num => (⟨none, out, num⟩, has)
  | i :: is, idx, has, out, num =>
    if c.reached num then (⟨some (.limit, idx), out, num⟩, has)
    else if c.full out then (⟨some (.full, idx), out, num⟩, has)
    else
      let r := construct c o i
      if r.2 && decide (c.ty = .anti) then (⟨none, out ++ r.1, num⟩, true)
      else applyScan c o is (idx + 1) (has || r.2) (out ++ r.1) (if r.2 then num + 1 else num)

/-- src/exec/apply_node.cpp L506-579: `get_next_via_inner_hash_map`. -/
def ahLoop (c : Cfg α β) (m : HMap β) : List α → Nat → List (Row α β) → Nat → List (Row α β) × Option (HOState α)
  | [], _, out, _ => (out, none)
  | o :: os, idx, out, num =>
    match m.seek (c.okey o) with
    | some is =>
      let r := applyScan c o (is.drop idx) idx false out num
      match r.1.stop with
      | some (.limit, _) => (r.1.out, none)
      | some (.full, k) => (r.1.out, some ⟨o :: os, k, r.1.num⟩)
      | none =>
        if r.2 then ahLoop c m os 0 r.1.out r.1.num
        else ahLoop c m os 0 (r.1.out ++ [(o, none)]) (r.1.num + 1)
    | none =>
      if c.reached num then (out, none)
      else if c.full out then (out, some ⟨o :: os, idx, num⟩)
      else ahLoop c m os 0 (out ++ [(o, none)]) (num + 1)

def ahNext (c : Cfg α β) (m : HMap β) (s : HOState α) : List (Row α β) × Option (HOState α) := ahLoop c m s.os s.idx [] s.num

/-! ## Correlated subqueries: nested loops -/

/-- src/exec/apply_node.cpp L463-490: one outer row against the rows its subquery returned, from `_inner_iter`; SEMI and
ANTI stop at the first match. -/
def anScan (c : Cfg α β) (o : α) : List β → Bool → List (Row α β) → Nat → NScan α β
  | [], has, out, num => ⟨none, has, out, num⟩
  | i :: is, has, out, num =>
    if c.reached num then ⟨some (.limit, i :: is), has, out, num⟩
    else if c.full out then ⟨some (.full, i :: is), has, out, num⟩
    else
      let r := construct c o i
      let has' := has || r.2
      let num' := if r.2 && decide (c.ty ≠ .anti) then num + 1 else num
      if has' && (decide (c.ty = .semi) || decide (c.ty = .anti)) then ⟨none, has', out ++ r.1, num'⟩
      else anScan c o is has' (out ++ r.1) num'

/-- src/exec/apply_node.cpp L443-504: `get_next_for_nested_loop_join`; `sub o` are the rows of the subquery run for the outer
row `o` (src/exec/apply_node.cpp L395-441).  With no inner row left the subquery of the current outer row is run. -/
def anLoop (c : Cfg α β) (sub : α → List β) : List α → List β → List (Row α β) → Nat → List (Row α β) × Option (NLState α β)
  | [], _, out, _ => (out, none)
  | o :: os, is, out, num =>
    let r := anScan c o (if is.isEmpty then sub o else is) false out num
    match r.stop with
    | some (.limit, _) => (r.out, none)
    | some (.full, is') => (r.out, some ⟨o :: os, is', r.num⟩)
    | none =>
      if r.matched = false ∧ (c.ty = .anti ∨ c.ty = .left) then anLoop c sub os [] (r.out ++ [(o, none)]) (r.num + 1)
      else anLoop c sub os [] r.out r.num

def anNext (c : Cfg α β) (sub : α → List β) (s : NLState α β) : List (Row α β) × Option (NLState α β) :=
  anLoop c sub s.os s.is [] s.num

/-! ## Calling `get_next` until the end -/

/-- The batches a parent collects by calling `get_next` until `*eos` is set. -/
inductive Drain {σ ρ : Type} (next : σ → List ρ × Option σ) : σ → List (List ρ) → Prop
  | last {s b} : next s = (b, none) → Drain next s [b]
  | more {s s' b bs} : next s = (b, some s') → Drain next s' bs → Drain next s (b :: bs)

end BaikalDB.Join
