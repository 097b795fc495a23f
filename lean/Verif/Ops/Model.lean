import Verif.Expr.Value
/-!
# Operators of SQL expressions

Model of src/expr/operators.cpp, of the part of src/expr/fn_manager.cpp and src/expr/scalar_fn_call.cpp that chooses the
types operators work on, of `ExprNode::const_pre_calc` (src/expr/expr_node.cpp) and of the literals involved.  An
expression is a tree of columns, literals and operators.  Undefined behaviour of C++ is the outcome `ub`; conversions
that are not modelled (to a date type, a date or a float to text) are the outcome `outside`.  Floating-point arithmetic
itself is left abstract (`FP`).  Not modelled: placeholders of prepared statements, `float_precision_len`, the vectorised
(arrow) evaluation.
-/
namespace BaikalDB.Ops
open BaikalDB.Expr BaikalDB.KeyEnc.Spec

/-- Why an evaluation gives no value. -/
inductive Bad where
  | ub | outside
deriving DecidableEq, Repr

/-- The floating-point conversions and operations of the machine, left abstract. -/
structure FP where
  ofInt : Int → BitVec 64
  ofStr : Bytes → BitVec 64
  ofF32 : BitVec 32 → BitVec 64
  add : BitVec 64 → BitVec 64 → BitVec 64
  sub : BitVec 64 → BitVec 64 → BitVec 64
  mul : BitVec 64 → BitVec 64 → BitVec 64
  div : BitVec 64 → BitVec 64 → BitVec 64

/-- Operators with one operand (include/sqlparser/expr.h: `FT_BIT_NOT`, `FT_UMINUS`). -/
inductive UOp where
  | bnot | neg
deriving DecidableEq, Repr

/-- Operators with two operands (include/sqlparser/expr.h: `FT_ADD` … `FT_LE`). -/
inductive BOp where
  | add | minus | mul | div | mod | band | bor | bxor | ls | rs | eq | ne | gt | ge | lt | le
deriving DecidableEq, Repr

/-- `ScalarFnCall::is_compare_op`, include/expr/scalar_fn_call.h L47-59. -/
def BOp.isPred : BOp → Bool
  | .eq | .ne | .gt | .ge | .lt | .le => true
  | _ => false

/-- `is_double(type)`, include/common/type_utils.h L114-122. -/
def isDouble : VTy → Bool
  | .float | .double => true
  | _ => false

/-- src/expr/fn_manager.cpp L316-400: the type both operands are converted to. -/
def argTy (op : BOp) (ts : List VTy) : VTy :=
  match op with
  | .eq | .ne | .gt | .ge | .lt | .le =>
    if ts.all VTy.isInt then if ts.any VTy.isUint then .uint64 else .int64
    else if ts.any (· == .datetime) then .datetime
    else if ts.any (· == .timestamp) then .timestamp
    else if ts.any (· == .date) then .date
    else if ts.any (· == .time) then .time
    else if ts.any isDouble then .double
    else if ts.any VTy.isInt then .double
    else .string
  | .add | .minus | .mul => if ts.any isDouble then .double else if ts.any VTy.isUint then .uint64 else .int64
  | .div => .double
  | .mod => if ts.any VTy.isUint then .uint64 else .int64
  | .band | .bor | .bxor | .ls | .rs => .uint64

/-- src/expr/fn_manager.cpp L316-400: the type of the result. -/
def retTy (op : BOp) (ts : List VTy) : VTy := if op.isPred then .bool else argTy op ts

/-- src/expr/fn_manager.cpp L377-389: operand and result type of `~` and unary minus. -/
def unTy (op : UOp) (t : VTy) : VTy :=
  match op with
  | .bnot => .uint64
  | .neg => if isDouble t then .double else if t.isUint then .uint64 else .int64

/-- The integer part of a binary64, whose numeric value is in units of 2^-1074. -/
def truncF64 (x : BitVec 64) : Int := (f64Value x).tdiv (2 ^ 1074)
/-- The integer part of a binary32, whose numeric value is in units of 2^-149. -/
def truncF32 (x : BitVec 32) : Int := (f32Value x).tdiv (2 ^ 149)

/-- Smallest and largest value of a C integer type. -/
def cRange : VTy → Int × Int
  | .int8 => (-2 ^ 7, 2 ^ 7 - 1) | .int16 => (-2 ^ 15, 2 ^ 15 - 1) | .int32 => (-2 ^ 31, 2 ^ 31 - 1)
  | .int64 => (-2 ^ 63, 2 ^ 63 - 1)
  | .uint8 => (0, 2 ^ 8 - 1) | .uint16 => (0, 2 ^ 16 - 1) | .uint32 => (0, 2 ^ 32 - 1) | _ => (0, 2 ^ 64 - 1)

/-- Conversion of a floating-point number, given by its integer part, to the integer type `t`: undefined when the
integer part is out of range or the number is a NaN. -/
def floatTo (v : EV) (nan : Prop) [Decidable nan] (x : Int) (t : VTy) : Except Bad EV :=
  if nan ∨ x < (cRange t).1 ∨ (cRange t).2 < x then .error .ub else .ok { v with ty := t, u := putLow t.width v.u x }

/-- include/common/expr_value.h L502-611: `cast_to`, for the targets BOOL, the integer types, DOUBLE and STRING. -/
def cast (fp : FP) (v : EV) (t : VTy) : Except Bad EV :=
  if v.isNull ∨ v.ty = .maxvalue ∨ v.ty = t then .ok v
  else match t with
    | .double =>
      match v.ty with
      | .float => .ok { v with ty := t, u := fp.ofF32 (v.u.setWidth 32) }
      | .string => .ok { v with ty := t, u := fp.ofStr v.s }
      | _ => match getInt v with
        | some x => .ok { v with ty := t, u := fp.ofInt x }
        | none => .error .outside
    | _ =>
      if v.ty = .double ∧ t.isInt then floatTo v (IsNaN64 v.u) (truncF64 v.u) t
      else if v.ty = .float ∧ t.isInt then floatTo v (IsNaN32 (v.u.setWidth 32)) (truncF32 (v.u.setWidth 32)) t
      else match castTo v t with
        | some w => .ok w
        | none => .error .outside

/-- include/expr/literal.h L204-210: `cast_to_col_type`; a number to be read as a date goes through its text. -/
def litCast (fp : FP) (v : EV) (t : VTy) : Except Bad EV :=
  if (t = .datetime ∨ t = .timestamp ∨ t = .date ∨ t = .time) ∧ (v.ty.isInt ∨ isDouble v.ty ∨ v.ty = .bool) then
    .error .outside
  else cast fp v t

/-- `ExprValue::Null()`. -/
def nullV : EV := ⟨.null, 0, []⟩
/-- A BOOL result: `ret._u.bool_val = …` on a zeroed union. -/
def boolV (b : Bool) : EV := ⟨.bool, if b then 1 else 0, []⟩

/-- C++ `op` of two values ordered as the flags say (`lt`: less, `eq`: equal; neither for unordered NaNs would be
`gt = false` as well). -/
def predOf (op : BOp) (lt eq gt : Bool) : Bool :=
  match op with
  | .eq => eq
  | .ne => !eq
  | .gt => gt
  | .ge => gt || eq
  | .lt => lt
  | .le => lt || eq
  | _ => false

/-- Comparison of two integers. -/
def predInt (op : BOp) (x y : Int) : EV := boolV (predOf op (decide (x < y)) (decide (x = y)) (decide (y < x)))

/-- IEEE equality on binary64. -/
def eq64 (a b : BitVec 64) : Bool := decide (¬ IsNaN64 a ∧ ¬ IsNaN64 b ∧ f64Value a = f64Value b)

/-- A signed 64-bit result; overflow is undefined behaviour. -/
def signed (x : Int) : Except Bad EV :=
  if x < -2 ^ 63 ∨ 2 ^ 63 ≤ x then .error .ub else .ok ⟨.int64, BitVec.ofInt 64 x, []⟩

/-- src/expr/operators.cpp L35-108: the function for `op` on operands of type `t`; where none is registered
(`_fn_call == NULL`, src/expr/scalar_fn_call.cpp L213-215) the result is NULL. -/
def binFn (fp : FP) (op : BOp) (t : VTy) (a b : EV) : Except Bad EV :=
  if a.isNull ∨ b.isNull then .ok nullV
  else match op, t with
    | .add, .int64 => signed (a.u.toInt + b.u.toInt)
    | .minus, .int64 => signed (a.u.toInt - b.u.toInt)
    | .mul, .int64 => signed (a.u.toInt * b.u.toInt)
    | .add, .uint64 => .ok ⟨.uint64, a.u + b.u, []⟩
    | .minus, .uint64 => .ok ⟨.uint64, a.u - b.u, []⟩
    | .mul, .uint64 => .ok ⟨.uint64, a.u * b.u, []⟩
    | .add, .double => .ok ⟨.double, fp.add a.u b.u, []⟩
    | .minus, .double => .ok ⟨.double, fp.sub a.u b.u, []⟩
    | .mul, .double => .ok ⟨.double, fp.mul a.u b.u, []⟩
    | .div, .double => if f64Value b.u = 0 then .ok nullV else .ok ⟨.double, fp.div a.u b.u, []⟩
    | .mod, .int64 =>
      if b.u.toInt = 0 then .ok nullV
      else if a.u.toInt = -2 ^ 63 ∧ b.u.toInt = -1 then .error .ub
      else .ok ⟨.int64, BitVec.ofInt 64 (a.u.toInt.tmod b.u.toInt), []⟩
    | .mod, .uint64 => if b.u = 0 then .ok nullV else .ok ⟨.uint64, a.u % b.u, []⟩
    | .ls, .uint64 => if 64 ≤ b.u.toNat then .error .ub else .ok ⟨.uint64, a.u <<< b.u.toNat, []⟩
    | .rs, .uint64 => if 64 ≤ b.u.toNat then .error .ub else .ok ⟨.uint64, a.u >>> b.u.toNat, []⟩
    | .band, .uint64 => .ok ⟨.uint64, a.u &&& b.u, []⟩
    | .bor, .uint64 => .ok ⟨.uint64, a.u ||| b.u, []⟩
    | .bxor, .uint64 => .ok ⟨.uint64, a.u ^^^ b.u, []⟩
    | op, t =>
      if op.isPred then
        match t with
        | .int64 => .ok (predInt op a.u.toInt b.u.toInt)
        | .uint64 | .datetime => .ok (predInt op a.u.toNat b.u.toNat)
        | .time => .ok (predInt op (a.sget 32) (b.sget 32))
        | .date | .timestamp => .ok (predInt op (a.uget 32) (b.uget 32))
        | .double => .ok (boolV (predOf op (gt64 b.u a.u) (eq64 a.u b.u) (gt64 a.u b.u)))
        | .string => .ok (predInt op (strCmp a.s b.s) 0)
        | _ => .ok nullV
      else .ok nullV

/-- src/expr/operators.cpp L18-33: `~` and unary minus.  `minus_uint` negates the union read as a signed number and
calls the result INT64. -/
def unFn (op : UOp) (t : VTy) (a : EV) : Except Bad EV :=
  if a.isNull then .ok nullV
  else match op, t with
    | .bnot, .uint64 => .ok ⟨.uint64, ~~~ a.u, []⟩
    | .neg, .int64 => signed (- a.u.toInt)
    | .neg, .uint64 => signed (- a.u.toInt)
    | .neg, .double => .ok ⟨.double, a.u ^^^ 0x8000000000000000#64, []⟩
    | _, _ => .ok nullV

/-- An expression as the planner builds it. -/
inductive Node where
  | lit (v : EV)
  | slot (i : Nat) (ty : VTy)
  | un (op : UOp) (a : Node)
  | bin (op : BOp) (a b : Node)
deriving DecidableEq, Repr

/-- `_is_constant`: no column below (src/expr/expr_node.cpp L32-37). -/
def Node.isConst : Node → Bool
  | .lit _ => true
  | .slot _ _ => false
  | .un _ a => a.isConst
  | .bin _ a b => a.isConst && b.isConst

/-- `is_slot_ref`. -/
def Node.isSlot : Node → Bool
  | .slot _ _ => true
  | _ => false

/-- `is_literal`. -/
def Node.isLit : Node → Bool
  | .lit _ => true
  | _ => false

/-- An expression with its types chosen: operand type and result type at every operator. -/
inductive TNode where
  | lit (v : EV)
  | slot (i : Nat) (ty : VTy)
  | un (op : UOp) (arg ret : VTy) (a : TNode)
  | bin (op : BOp) (arg ret : VTy) (a b : TNode)
deriving DecidableEq, Repr

/-- `col_type()`. -/
def TNode.ty : TNode → VTy
  | .lit v => v.ty
  | .slot _ t => t
  | .un _ _ t _ => t
  | .bin _ _ t _ _ => t

/-- `set_col_type` (include/expr/expr_node.h L313-315).  A literal's value is left alone. -/
def TNode.setTy (t : VTy) : TNode → TNode
  | .un op arg _ a => .un op arg t a
  | .bin op arg _ a b => .bin op arg t a b
  | n => n

/-- src/expr/scalar_fn_call.cpp L110-115: a literal operand is converted to the operand type once and for all. -/
def castChild (fp : FP) (t : VTy) : TNode → Except Bad TNode
  | .lit v => (litCast fp v t).map .lit
  | n => .ok n

/-- The types handed to `complete_fn` (src/expr/scalar_fn_call.cpp L56-108): for a comparison of a column with a
constant, the constant counts as of the column's type. -/
def operandTys (op : BOp) (a b : Node) (ta tb : TNode) : List VTy :=
  if op.isPred ∧ a.isSlot ∧ b.isConst then [ta.ty, ta.ty] else [ta.ty, tb.ty]

/-- The right operand after `set_col_type` (src/expr/scalar_fn_call.cpp L66-69). -/
def rightNode (op : BOp) (a b : Node) (ta tb : TNode) : TNode :=
  if op.isPred ∧ a.isSlot ∧ b.isConst then tb.setTy ta.ty else tb

/-- src/expr/scalar_fn_call.cpp L46-117: `type_inferer`. -/
def infer (fp : FP) : Node → Except Bad TNode
  | .lit v => .ok (.lit v)
  | .slot i t => .ok (.slot i t)
  | .un op a => do
    let ta ← infer fp a
    let ca ← castChild fp (unTy op ta.ty) ta
    return .un op (unTy op ta.ty) (unTy op ta.ty) ca
  | .bin op a b => do
    let ta ← infer fp a
    let tb ← infer fp b
    let ts := operandTys op a b ta tb
    let ca ← castChild fp (argTy op ts) ta
    let cb ← castChild fp (argTy op ts) (rightNode op a b ta tb)
    return .bin op (argTy op ts) (retTy op ts) ca cb

/-- src/expr/scalar_fn_call.cpp L190-224: `get_value`: operands converted to the operand type, the result to the
result type.  `row i` is the value of column `i`. -/
def eval (fp : FP) (row : Nat → EV) : TNode → Except Bad EV
  | .lit v => .ok v
  | .slot i _ => .ok (row i)
  | .un op arg ret a => do
    let v ← eval fp row a
    let v ← cast fp v arg
    let r ← unFn op arg v
    cast fp r ret
  | .bin op arg ret a b => do
    let v ← eval fp row a
    let w ← eval fp row b
    let v ← cast fp v arg
    let w ← cast fp w arg
    let r ← binFn fp op arg v w
    cast fp r ret

/-- src/expr/expr_node.cpp L73-85: the value of a constant subexpression (there is no row). -/
def constValue (fp : FP) (e : Node) : Except Bad EV := do
  let t ← infer fp e
  eval fp (fun _ => nullV) t

/-- src/expr/fn_manager.cpp L46-66: `swap_op`. -/
def BOp.swap : BOp → BOp
  | .gt => .lt | .ge => .le | .lt => .gt | .le => .ge
  | op => op

/-- src/expr/scalar_fn_call.cpp L121-134: `children_swap`: `1 < a` becomes `a > 1`. -/
def swapNode (op : BOp) (a b : Node) : Node :=
  if op.isPred ∧ a.isConst ∧ b.isConst = false ∧ b.isSlot then .bin op.swap b a else .bin op a b

/-- src/expr/expr_node.cpp L58-86 for one operand: an operator over constants becomes its value; `rest` is the result of
`const_pre_calc` on the operand. -/
def foldChild (fp : FP) (c : Node) (rest : Except Bad Node) : Except Bad Node :=
  if c.isConst then if c.isLit then .ok c else (constValue fp c).map .lit else rest

/-- src/expr/expr_node.cpp L27-88: `const_pre_calc`.  A constant expression is left to its parent. -/
def preCalc (fp : FP) : Node → Except Bad Node
  | .lit v => .ok (.lit v)
  | .slot i t => .ok (.slot i t)
  | .un op a =>
    if (Node.un op a).isConst then .ok (.un op a)
    else do
      let a' ← foldChild fp a (preCalc fp a)
      return .un op a'
  | .bin op a b =>
    if (Node.bin op a b).isConst then .ok (.bin op a b)
    else do
      let a' ← foldChild fp a (preCalc fp a)
      let b' ← foldChild fp b (preCalc fp b)
      return swapNode op a' b'

/-- include/expr/expr_node.h L158-161: `expr_optimize`, then the value for a row. -/
def run (fp : FP) (e : Node) (row : Nat → EV) : Except Bad EV := do
  let e' ← preCalc fp e
  let t ← infer fp e'
  eval fp row t

/-- include/sqlparser/expr.h L296-301 and include/expr/literal.h L50-58: a decimal number in SQL text: `strtoull` into a
signed 64-bit number. -/
def numberLit (n : Nat) : EV := ⟨.int64, if n < 2 ^ 64 then BitVec.ofNat 64 n else BitVec.allOnes 64, []⟩

/-- include/expr/scalar_fn_call.h L61-154: comparison of two rows `(a, b) op (c, d)` column by column: `st` says what a
first difference means, `last` what it means when there is none.  The code calls `compare_diff_type` twice; the first
call converts both sides in place, which does not change the second result. -/
def rowLoop (less more last : Bool) : List EV → List EV → Option Bool
  | a :: as, b :: bs => do
    let d ← compareDiff a b
    if d < 0 then some less else if d > 0 then some more else rowLoop less more last as bs
  | _, _ => some last

/-- include/expr/scalar_fn_call.h L61-154: the six row comparisons. -/
def rowCmp (op : BOp) (as bs : List EV) : Option Bool :=
  match op with
  | .eq => rowLoop false false true as bs
  | .ne => rowLoop true true false as bs
  | .lt => rowLoop true false false as bs
  | .le => rowLoop true false true as bs
  | .gt => rowLoop false true false as bs
  | .ge => rowLoop false true true as bs
  | _ => none

end BaikalDB.Ops
