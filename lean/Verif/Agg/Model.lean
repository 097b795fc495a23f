import Verif.Basic

/-!
# Aggregation on the stores and in the SQL layer

`AggFnCall` (src/expr/agg_fn_call.cpp) and `AggNode` (src/exec/agg_node.cpp): the row engine, not the vectorised one.
`V` are the non-NULL values of a column, `D` the doubles, `O` the values of an ORDER BY inside an aggregate, `ρ` the rows.
HLL and t-digest aggregates are not modelled.
-/

namespace BaikalDB.Agg

/-- Conversions and comparisons of `ExprValue` (include/common/expr_value.h) used by aggregates; modelled in `Verif.Expr`
and `Verif.KeyEnc`, taken here as parameters. -/
structure Env (V D O : Type) where
  zero : D
  add : D → D → D
  /-- `avg->sum / avg->count` -/
  div : D → BitVec 64 → D
  cmp : V → V → Int
  /-- `get_numberic<int64_t>`, `get_numberic<double>`, `get_string`, `get_numberic<uint32_t>` -/
  toInt : V → BitVec 64
  toDbl : V → D
  toStr : V → Bytes
  toU32 : V → Nat
  /-- a value of type STRING -/
  ofStr : Bytes → V
  /-- `MutTableKey::append_value` -/
  enc : V → Bytes
  /-- the type tag and the bytes `multi_distinct_serialize` writes, and back -/
  tag : V → Byte
  raw : V → Bytes
  unraw : Byte → Bytes → V
  /-- `Sorter` with the comparison of the aggregate's ORDER BY (`Verif.Sort`) -/
  sort : List (O × Bytes) → List (O × Bytes)

/-- The value of an argument.  A bitmap is the number whose bits are its members. -/
inductive Arg (V : Type) where
  | null
  | sc (v : V)
  | bm (b : Nat)
  deriving DecidableEq, Repr

def Arg.val? : Arg V → Option V
  | .sc v => some v
  | _ => none

def Arg.bits? : Arg V → Option Nat
  | .bm b => some b
  | _ => none

def Arg.isNull : Arg V → Bool
  | .null => true
  | _ => false

/-- What an aggregate's slot of a row holds.  `avg`: the 16 bytes of `AvgIntermediate` (agg_fn_call.h:41-47). -/
inductive Slot (V D : Type) where
  | null
  | int (n : BitVec 64)
  | dbl (x : D)
  | sc (v : V)
  | avg (s : D) (n : BitVec 64)
  | str (s : Bytes)
  | bm (b : Nat)
  deriving DecidableEq, Repr

/-- agg_fn_call.h:51-74; SUM by the type of its slot (agg_fn_call.cpp:103-117).  `absent`: the row has a slot for an
aggregate this node does not compute (select_planner.cpp:640-660). -/
inductive Kind where
  | countStar | count | sum | sumDbl | avg | min | max | rbOr | rbAnd | rbXor | rbBuild | concat
  | multiCount | multiSum | multiSumDbl | multiConcat | absent
  deriving DecidableEq, Repr

def Kind.isBitmap : Kind → Bool
  | .rbOr | .rbAnd | .rbXor | .rbBuild => true
  | _ => false

def Kind.isMulti : Kind → Bool
  | .multiCount | .multiSum | .multiSumDbl | .multiConcat => true
  | _ => false

/-- One aggregate of the query: `_children`, `_is_distinct` (of a plain aggregate), `_sep`, `_order_exprs`, `_is_asc`. -/
structure Call (ρ V O : Type) where
  kind : Kind
  args : List (ρ → Arg V)
  distinct : Bool := false
  sep : Bytes := [0x2c#8]
  order : Option (ρ → O) := none
  asc : Bool := false

/-- The state of an aggregate for one group: the slots of the group's row and the entries of `_intermediate_val_map`,
`_multi_distinct_intermediate_val_map` and `_intermediate_row_batch_map`.  `ub`: memory outside a string was read. -/
structure St (V D O : Type) where
  slot : Slot V D := .null
  fin : Slot V D := .null
  assigned : Bool := false
  side : Nat := 0
  set : List V := []
  batch : List (O × Bytes) := []
  ub : Bool := false

variable {ρ V D O : Type}

/-! ## Sets and their serialisation -/

/-- `ExprValueUniqSet::insert` (agg_fn_call.h:24-39).  Equal values have equal hashes (C28). -/
def setInsert (e : Env V D O) (s : List V) (v : V) : List V := if s.any (fun x => e.cmp x v == 0) then s else s ++ [v]

/-- `std::unordered_set::merge`. -/
def setMerge (e : Env V D O) (s t : List V) : List V := t.foldl (setInsert e) s

/-- Widths by type tag (agg_fn_call.cpp:1080-1125, proto/common.proto:47-72): `some none` for strings, `none` if not
supported. -/
def width (t : Byte) : Option (Option Nat) :=
  if t = 2#8 ∨ t = 3#8 ∨ t = 7#8 then some (some 1)
  else if t = 4#8 ∨ t = 8#8 then some (some 2)
  else if t = 5#8 ∨ t = 18#8 ∨ t = 9#8 ∨ t = 15#8 ∨ t = 16#8 ∨ t = 11#8 then some (some 4)
  else if t = 6#8 ∨ t = 10#8 ∨ t = 14#8 ∨ t = 12#8 then some (some 8)
  else if t = 13#8 ∨ t = 20#8 then some none
  else none

/-- An `int` in memory. -/
def le32 (n : Nat) : Bytes := [BitVec.ofNat 8 n, BitVec.ofNat 8 (n / 256), BitVec.ofNat 8 (n / 65536), BitVec.ofNat 8 (n / 16777216)]

/-- Reading an `int`; negative ones do not occur below `2^31`. -/
def rd32 : Bytes → Option (Nat × Bytes)
  | a :: b :: c :: d :: l => some (a.toNat + 256 * b.toNat + 65536 * c.toNat + 16777216 * d.toNat, l)
  | _ => none

/-- agg_fn_call.cpp:1132-1165, the data. -/
def serBody (e : Env V D O) (w : Option Nat) (s : List V) : Bytes :=
  match w with
  | some _ => s.flatMap e.raw
  | none => s.flatMap fun v => le32 (e.raw v).length ++ e.raw v

/-- agg_fn_call.cpp:1075-1165; `none`: the type is not supported. -/
def serialize (e : Env V D O) (s : List V) : Option Bytes :=
  match s with
  | [] => some []
  | v :: _ =>
    match width (e.tag v) with
    | none => none
    | some w => some (le32 (1 + (serBody e w s).length) ++ e.tag v :: serBody e w s)

/-- agg_fn_call.cpp:1227-1241; `none`: reads behind the end. -/
def unserFixed (e : Env V D O) (t : Byte) (w : Nat) (fuel : Nat) (l : Bytes) : Option (List V) :=
  match fuel, l with
  | _, [] => some []
  | 0, _ => none
  | fuel + 1, l => if l.length < w then none else (unserFixed e t w fuel (l.drop w)).map (e.unraw t (l.take w) :: ·)

/-- agg_fn_call.cpp:1243-1253. -/
def unserStr (e : Env V D O) (t : Byte) (fuel : Nat) (l : Bytes) : Option (List V) :=
  match fuel, l with
  | _, [] => some []
  | 0, _ => none
  | fuel + 1, l =>
    match rd32 l with
    | none => none
    | some (n, rest) =>
      if rest.length < n then none else (unserStr e t fuel (rest.drop n)).map (e.unraw t (rest.take n) :: ·)

/-- agg_fn_call.cpp:1167-1225; `none`: reads behind the end of the string, so for every string shorter than the header.  An
unsupported type leaves the set empty (the callers ignore the error). -/
def unserialize (e : Env V D O) (l : Bytes) : Option (List V) :=
  match rd32 l with
  | none => none
  | some (_, []) => none
  | some (n, t :: body) =>
    if body.length + 1 < n then none
    else
      match width t with
      | none => some []
      | some (some w) => unserFixed e t w body.length (body.take (n - 1))
      | some none => unserStr e t body.length (body.take (n - 1))

/-! ## One aggregate -/

/-- agg_fn_call.cpp:323-367. -/
def isInit (e : Env V D O) [DecidableEq D] (c : Call ρ V O) (p : Slot V D) : Bool :=
  if c.distinct && !c.kind.isMulti then false
  else if c.kind == .absent then true
  else
    match p with
    | .null => true
    | .int n => (c.kind == .countStar || c.kind == .count) && n == 0
    | .avg s n => c.kind == .avg && (s == e.zero && n == 0)
    | .str l => c.kind.isMulti && l == []
    | _ => false

/-- agg_fn_call.cpp:370-494.  A group is initialised once, so `_intermediate_val_map.count(key) == 0` holds. -/
def initAgg (e : Env V D O) (c : Call ρ V O) (onlyCount : Bool) (s : St V D O) : St V D O :=
  match c.kind with
  | .countStar | .count => match s.slot with | .null => { s with slot := .int 0 } | _ => s
  | .avg =>
    if onlyCount then s else match s.slot with | .null => { s with slot := .avg e.zero 0, fin := .null } | _ => s
  | .rbOr | .rbAnd | .rbXor | .rbBuild =>
    if onlyCount then s
    else
      match s.slot with
      | .bm b => { s with side := b, assigned := c.kind != .rbAnd }
      | _ => { s with side := 0, slot := .bm 0, assigned := c.kind != .rbAnd }
  | _ => s

/-- The first argument of a row; the text of GROUP_CONCAT (agg_fn_call.cpp:678-686), `none` if all parts are NULL. -/
def arg0 (c : Call ρ V O) (r : ρ) : Arg V := (c.args.head?.map (· r)).getD .null

def text (e : Env V D O) (c : Call ρ V O) (r : ρ) : Option Bytes :=
  let ps := c.args.filterMap fun a => (a r).val?.map e.toStr
  if ps.isEmpty then none else some ps.flatten

/-- `ExprValue::add` (expr_value.h:840-880) into a 64-bit slot and into a double slot: NULL takes the value. -/
def addInt (p : Slot V D) (n : BitVec 64) : Slot V D :=
  match p with | .int m => .int (m + n) | .null => .int n | p => p

def addDbl (e : Env V D O) (p : Slot V D) (x : D) : Slot V D :=
  match p with | .dbl y => .dbl (e.add y x) | .null => .dbl x | p => p

/-- agg_fn_call.cpp:540-542, 550-552: the slot takes the value if it is NULL or compares greater (less). -/
def better (e : Env V D O) (isMin : Bool) (p : Slot V D) (v : V) : Slot V D :=
  match p with
  | .sc w => if (isMin && e.cmp w v > 0) || (!isMin && e.cmp w v < 0) then .sc v else .sc w
  | _ => .sc v

/-- agg_fn_call.cpp:703-711. -/
def concatTo (sep : Bytes) (p : Slot V D) (s : Bytes) : Slot V D :=
  match p with | .str t => .str (t ++ sep ++ s) | _ => .str s

/-- agg_fn_call.cpp:496-718. -/
def update (e : Env V D O) (c : Call ρ V O) (s : St V D O) (r : ρ) : St V D O :=
  match c.kind with
  | .countStar => { s with slot := addInt s.slot 1 }
  | .count => if c.args.all (fun a => !(a r).isNull) then { s with slot := addInt s.slot 1 } else s
  | .sum => match (arg0 c r).val? with | some v => { s with slot := addInt s.slot (e.toInt v) } | none => s
  | .sumDbl => match (arg0 c r).val? with | some v => { s with slot := addDbl e s.slot (e.toDbl v) } | none => s
  | .avg =>
    match (arg0 c r).val? with
    | some v => match s.slot with | .avg x n => { s with slot := .avg (e.add x (e.toDbl v)) (n + 1) } | _ => s
    | _ => s
  | .min => match (arg0 c r).val? with | some v => { s with slot := better e true s.slot v } | none => s
  | .max => match (arg0 c r).val? with | some v => { s with slot := better e false s.slot v } | none => s
  | .rbOr => match (arg0 c r).bits? with | some b => { s with side := s.side ||| b } | none => s
  | .rbAnd =>
    match (arg0 c r).bits? with
    | some b => { s with side := if s.assigned then s.side &&& b else b, assigned := true }
    | _ => s
  | .rbXor => match (arg0 c r).bits? with | some b => { s with side := s.side ^^^ b } | none => s
  | .rbBuild => match (arg0 c r).val? with | some v => { s with side := s.side ||| (1 <<< e.toU32 v) } | none => s
  | .concat =>
    match text e c r with
    | none => s
    | some t =>
      match c.order with
      | some o => { s with batch := s.batch ++ [(o r, t)] }
      | none => { s with slot := concatTo c.sep s.slot t }
  | .multiCount | .multiSum | .multiSumDbl => match (arg0 c r).val? with | some v => { s with set := setInsert e s.set v } | none => s
  | .multiConcat => match text e c r with | some t => { s with set := setInsert e s.set (e.ofStr t) } | none => s
  | .absent => s

/-- A serialised partial set joins the set: agg_fn_call.cpp:762-775, 826-840. -/
def mergeSet (e : Env V D O) (s : St V D O) (p : Slot V D) : St V D O :=
  match p with
  | .str l => match unserialize e l with | some t => { s with set := setMerge e s.set t } | none => { s with ub := true }
  | _ => s

/-- agg_fn_call.cpp:719-926.  `same`: the row is the group's own row (`src == dst`); `r`, `p`: the row and its slot. -/
def merge (e : Env V D O) (c : Call ρ V O) (same : Bool) (s : St V D O) (r : ρ) (p : Slot V D) : St V D O :=
  if c.distinct && !c.kind.isMulti then update e c s r
  else if c.kind.isMulti then mergeSet e s p
  else
    match c.kind, c.order with
    | .concat, some o => match p with | .str t => { s with batch := s.batch ++ [(o r, t)] } | _ => s
    | k, _ =>
      if same then
        if k.isBitmap then match p with | .bm b => { s with side := b, assigned := true } | _ => { s with side := 0, assigned := true }
        else s
      else
        match k with
        | .countStar | .count | .sum => match p with | .int n => { s with slot := addInt s.slot n } | _ => s
        | .sumDbl => match p with | .dbl x => { s with slot := addDbl e s.slot x } | _ => s
        | .avg =>
          match p, s.slot with
          | .avg x n, .avg y m => { s with slot := .avg (e.add y x) (m + n) }
          | _, _ => s
        | .min => match p with | .sc v => { s with slot := better e true s.slot v } | _ => s
        | .max => match p with | .sc v => { s with slot := better e false s.slot v } | _ => s
        | .rbOr | .rbBuild => match p with | .bm b => { s with side := s.side ||| b } | _ => s
        | .rbAnd =>
          match p with
          | .bm b => { s with side := if s.assigned then s.side &&& b else b, assigned := true }
          | _ => s
        | .rbXor => match p with | .bm b => { s with side := s.side ^^^ b } | _ => s
        | .concat => match p with | .str t => { s with slot := concatTo c.sep s.slot t } | _ => s
        | _ => s

/-- The loops of 946-954 and 1054-1059: a separator only once the result is not empty. -/
def joinLoop (sep : Bytes) (l : List Bytes) : Bytes := l.foldl (fun acc s => if acc = [] then s else acc ++ sep ++ s) []

/-- `std::sort` by length, then bytes (1044-1050). -/
def textLe (a b : Bytes) : Bool := if a.length = b.length then bcmp a b != .gt else decide (a.length < b.length)

/-- agg_fn_call.cpp:927-1073.  For all but AVG and the set aggregates the final slot is the intermediate slot
(logical_planner.cpp:2007-2029). -/
def finalize (e : Env V D O) (c : Call ρ V O) (merger : Bool) (s : St V D O) : St V D O :=
  match c.kind, c.order with
  | .concat, some _ =>
    let p : Slot V D := if s.batch = [] then .null else .str (joinLoop c.sep ((e.sort s.batch).map (·.2)))
    { s with slot := p, fin := p }
  | k, _ =>
    if k.isBitmap then
      let p : Slot V D := if s.assigned then .bm s.side else .null
      { s with slot := p, fin := p }
    else if k.isMulti then
      if merger then
        let s := mergeSet e s s.slot
        let f : Slot V D :=
          match k with
          | .multiCount => .int (BitVec.ofNat 64 s.set.length)
          | .multiSum => .int (s.set.foldl (fun a v => a + e.toInt v) 0)
          | .multiSumDbl => if s.set = [] then .int 0 else .dbl (s.set.foldl (fun a v => e.add a (e.toDbl v)) e.zero)
          | _ =>
            let l := (s.set.map e.toStr).mergeSort textLe
            .str (joinLoop c.sep (if c.asc then l else l.reverse))
        match serialize e s.set with
        | some l => { s with slot := .str l, fin := f }
        | none => s
      else
        match serialize e s.set with
        | some l => { s with slot := .str l }
        | none => s
    else
      match k with
      | .avg =>
        match s.slot with
        | .avg x n => { s with fin := if n = 0 then .null else .dbl (e.div x n) }
        | _ => { s with fin := .null }
      | .absent => s
      | _ => { s with fin := s.slot }

/-! ## The node -/

/-- exec_node.cpp:555-571 `encode_exprs_key`: a byte of null flags, then the values that are not NULL.  `none`: the shift by
`7 - i` for `i > 7` is undefined. -/
def encodeKey (e : Env V D O) (vals : List (Arg V)) : Option Bytes :=
  if vals.length > 8 ∧ (vals.drop 8).any (·.isNull) then none
  else
    let flag : Byte := vals.zipIdx.foldl (fun f (v, i) => if v.isNull then f ||| (1#8 <<< (7 - i)) else f) 0#8
    some (flag :: vals.flatMap fun v => (v.val?.map e.enc).getD [])

/-- A row passing through the tree of nodes: the columns, and for every aggregate its intermediate slot, its final slot. -/
structure Row (n : Nat) (ρ V D : Type) where
  cols : ρ
  slots : Fin n → Slot V D := fun _ => .null
  fins : Fin n → Slot V D := fun _ => .null

/-- `_group_exprs`, `_agg_fn_calls` and the row of NULLs `fetch_mem_row` gives. -/
structure Node (n : Nat) (ρ V O : Type) where
  group : List (ρ → Arg V)
  calls : Fin n → Call ρ V O
  blank : ρ

variable {n : Nat} [DecidableEq D]

def keyOf (e : Env V D O) (nd : Node n ρ V O) (r : ρ) : Bytes := (encodeKey e (nd.group.map (· r))).getD []

/-- A group's entry in `_hash_map`: its key, the columns of its row, the aggregates' states. -/
abbrev Group (n : Nat) (ρ V D O : Type) := Bytes × ρ × (Fin n → St V D O)

/-- agg_fn_call.h:117-126. -/
def allInit (e : Env V D O) (nd : Node n ρ V O) (r : Row n ρ V D) : Bool := (List.finRange n).all fun i => isInit e (nd.calls i) (r.slots i)

/-- `merge_all` or `update_all` (agg_node.cpp:539-543). -/
def feed (e : Env V D O) (nd : Node n ρ V O) (merger same : Bool) (st : Fin n → St V D O) (r : Row n ρ V D) : Fin n → St V D O :=
  fun i =>
    if merger then merge e (nd.calls i) same (st i) r.cols (if same then (st i).slot else r.slots i)
    else update e (nd.calls i) (st i) r.cols

/-- A new group (agg_node.cpp:516-531): its first row becomes the group's row. -/
def open1 (e : Env V D O) (nd : Node n ρ V O) (merger : Bool) (r : Row n ρ V D) : Fin n → St V D O :=
  feed e nd merger true (fun i => initAgg e (nd.calls i) false { slot := r.slots i, fin := r.fins i }) r

/-- agg_node.cpp:507-545, one row. -/
def stepRow (e : Env V D O) (nd : Node n ρ V O) (merger : Bool) (m : List (Group n ρ V D O)) (r : Row n ρ V D) : List (Group n ρ V D O) :=
  let k := keyOf e nd r.cols
  if m.any (·.1 == k) then m.map fun g => if g.1 == k then (g.1, g.2.1, feed e nd merger false g.2.2 r) else g
  else if merger && nd.group.isEmpty && allInit e nd r then m
  else m ++ [(k, r.cols, open1 e nd merger r)]

/-- agg_node.cpp:405-505: all rows, then the row for an empty result without GROUP BY.  `top`: below a packet node. -/
def openNode (e : Env V D O) (nd : Node n ρ V O) (merger top : Bool) (rows : List (Row n ρ V D)) : List (Group n ρ V D O) :=
  let m := rows.foldl (stepRow e nd merger) []
  if m.isEmpty && nd.group.isEmpty && (top || merger) then
    [(keyOf e nd nd.blank, nd.blank, fun i => initAgg e (nd.calls i) true {})]
  else m

/-- agg_node.cpp:547-573: the rows handed on. -/
def emit (e : Env V D O) (nd : Node n ρ V O) (merger : Bool) (g : Group n ρ V D O) : Row n ρ V D × Bool :=
  let st := fun i => finalize e (nd.calls i) merger (g.2.2 i)
  (⟨g.2.1, fun i => (st i).slot, fun i => (st i).fin⟩, (List.finRange n).any fun i => (st i).ub)

def runNode (e : Env V D O) (nd : Node n ρ V O) (merger top : Bool) (rows : List (Row n ρ V D)) : List (Row n ρ V D × Bool) :=
  (openNode e nd merger top rows).map (emit e nd merger)

/-- A row as the scan below the store's node hands it up: the aggregates' slots are NULL. -/
def scanned (r : ρ) : Row n ρ V D := ⟨r, fun _ => .null, fun _ => .null⟩

end BaikalDB.Agg
